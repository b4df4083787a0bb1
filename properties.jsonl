{"id": "C01", "title": "Pattern tokenization is lossless", "statement": "Splitting a pattern into tokens loses, adds and reorders nothing: concatenating the tokens gives back the pattern, and a backslash is never separated from the character it escapes.", "quantifier": "every pattern string that the library can tokenize", "why_tests_cant": "The test suite tokenizes one literal pattern; the claim is about every string of every length.", "anchors": ["src/tokenizer.hpp:tokenizer", "src/tokenizer.hpp:extract_braces_numbers"]}
{"id": "C02", "title": "Which patterns tokenize", "statement": "A pattern tokenizes (instead of failing to compile) exactly when every '{' that the scan reaches outside an escape is followed, later in the pattern, by a '}'.", "quantifier": "every pattern string", "why_tests_cant": "An iff over all strings; a test shows single points of one side of it.", "anchors": ["src/tokenizer.hpp:tokenizer", "src/tokenizer.hpp:extract_braces_numbers"]}
{"id": "C03", "title": "Quantifier bounds are read as decimal numbers", "statement": "The bound written in {n}, {n,}, {n,m} is the decimal value of its digits (modulo 2^32), and printing a positive bound and reading it again gives the same bound. (Printing the bound 0 gives the empty string: recorded as a refutation.)", "quantifier": "every digit string; every bound below 2^32", "why_tests_cant": "Infinitely many digit strings, including those whose value wraps; the test checks \"150\".", "anchors": ["src/utilities/pack_string_to_number.hpp:pack_string_to_number", "src/utilities/number_to_pack_string.hpp:number_to_pack_string", "src/operators/braces.hpp"]}
{"id": "C04", "title": "A bracketed group extends to its matching closer", "statement": "The content of (…), […] or {…} is everything up to the closer that matches the opener, counting nested openers and closers of the same kind, and what follows the closer is left for the rest of the pattern.", "quantifier": "every token sequence, every nesting depth", "why_tests_cant": "Unbounded nesting depth and content.", "anchors": ["src/utilities/extract_delimited_content.hpp:extract_delimited_content"]}
{"id": "C05", "title": "Alternation is split only at top level and loses nothing", "statement": "Joining the alternatives with the separator gives back the token sequence; for a well-nested token sequence the cut points are exactly the separators outside every bracket pair.", "quantifier": "every token sequence", "why_tests_cant": "Quantifies over all token sequences and nesting depths.", "anchors": ["src/utilities/split.hpp:split", "src/utilities/balanced.hpp:balanced", "src/utilities/reverse.hpp:reverse"]}
{"id": "C06", "title": "Bracket balance check", "statement": "The balance check accepts a token sequence exactly when its brackets are well nested. (The 'accepts only' half is false of the code for stray closers; recorded as a refutation with the exact characterisation that does hold.)", "quantifier": "every token sequence", "why_tests_cant": "Unbounded nesting; a stack language.", "anchors": ["src/utilities/balanced.hpp:balanced", "src/utilities/static_stack.hpp:static_stack"]}
{"id": "C07", "title": "Hex escapes denote the byte they spell", "statement": "\\xN, \\xNM and \\x{…} match exactly the bytes whose hexadecimal spelling is given.", "quantifier": "every digit sequence of every length", "why_tests_cant": "The tests use 41 and 414141 only; digits A-F are never exercised, and the brace form has unbounded length.", "anchors": ["src/operators/hex.hpp:hex_to_bin", "src/operators/hex.hpp:tree_builder_helper"]}
{"id": "C08", "title": "Octal escapes denote the byte they spell", "statement": "\\NNN and \\o{…} match exactly the bytes whose three-digit octal spelling is given.", "quantifier": "every digit triple, every sequence of triples of every length", "why_tests_cant": "The tests use 101 only; the brace form has unbounded length.", "anchors": ["src/operators/octal.hpp:octal_to_bin", "src/operators/octal.hpp:tree_builder_helper"]}
{"id": "C09", "title": "groups counts the capturing parentheses", "statement": "For every pattern that compiles, `regex::groups` (and the number of slots of the match result) equals the number of capturing groups written in the pattern, before and after the heuristics are applied.", "quantifier": "every pattern string that compiles", "why_tests_cant": "All patterns, all nestings of groups, classes, branches and quantifiers.", "anchors": ["src/regex.hpp:regex::groups", "src/nodes/common.hpp:group_getter", "src/nodes/group.hpp:group::groups", "src/operators/round_brackets.hpp"]}
{"id": "C10", "title": "Captures are always stored inside the result", "statement": "No pattern that compiles makes a match write a capture outside the result's array of groups, whatever the query.", "quantifier": "every pattern that compiles, every query, every execution", "why_tests_cant": "Memory safety over all patterns and inputs; a test can only fail to observe a violation.", "anchors": ["src/nodes/group.hpp:group::match", "src/match_result.hpp:match_result_data", "src/operators/round_brackets.hpp", "src/tree_builder/tree_builder.hpp"]}
{"id": "C11", "title": "result[n] is the n-th group", "statement": "result[n] holds the text of the n-th capturing parenthesis of the pattern, counted from the left: distinct groups use distinct slots. (False of the code after a character class, a nested group or a group-free branch; recorded as refutations.)", "quantifier": "every pattern with any number of groups", "why_tests_cant": "All combinations of groups with classes, nesting and branches.", "anchors": ["src/nodes/common.hpp:base::next_group_index", "src/nodes/group.hpp:group::next_group_index", "src/operators/round_brackets.hpp", "src/operators/square_brackets.hpp"]}
{"id": "C12", "title": "The optimizer terminates in a fixpoint", "statement": "Applying the heuristics repeatedly stops for every regex tree, and the result is stable: applying them again changes nothing.", "quantifier": "every regex tree (hence every pattern that compiles)", "why_tests_cant": "Termination over an infinite domain; compile-time recursion without a bound.", "anchors": ["src/regex.hpp:__private::optimizer", "src/nodes/basic.hpp:simple::optimize", "src/nodes/greedy.hpp:greedy::optimize", "src/nodes/lazy.hpp:lazy::optimize"]}
{"id": "C13", "title": "The optimizer only removes choice points and wrappers", "statement": "The heuristics keep the number of groups, the group slots, and the set of strings denoted by the pattern (read as a regular expression, possessive and lazy quantifiers denoting the same strings as greedy ones).", "quantifier": "every regex tree", "why_tests_cant": "All trees of every size, with every combination of nodes.", "anchors": ["src/nodes/basic.hpp:simple::optimize", "src/nodes/group.hpp:group::optimize", "src/nodes/greedy.hpp:greedy::optimize", "src/nodes/lazy.hpp:lazy::optimize"]}
{"id": "C14", "title": "Heuristics do not alter what is matched", "statement": "README: 'Those heuristics will not alter the matched set of the regex.' Matching with the optimized tree finds a match exactly when matching with the tree as written does. (False of the code, e.g. \\d+[a-z0-9]; recorded as refutations. Proved: greedy and lazy removal preserve the backtracking result whenever the first-character sets used are sound.)", "quantifier": "every pattern and query", "why_tests_cant": "An equivalence between two matchers over all patterns and all inputs.", "anchors": ["README.md:Heuristics", "src/nodes/greedy.hpp:greedy::optimize", "src/nodes/lazy.hpp:lazy::optimize", "src/nodes/basic.hpp:simple::admission_set"]}
{"id": "C15", "title": "First-character set algebra is exact", "statement": "Merging, intersecting and complementing admitted-character sets compute union, intersection and complement within 0..127, and keep the sets strictly increasing; asking a set for a character answers membership.", "quantifier": "every pair of strictly increasing character sets", "why_tests_cant": "All sets; the test instantiates three.", "anchors": ["src/utilities/admitted_set.hpp"]}
{"id": "C16", "title": "is_independent is sound", "statement": "If a.is_independent(b) is true then no character can begin both a match of a and a match of b. (False of the code for alternations, classes, groups with a continuation and characters outside 0..127; recorded as refutations.)", "quantifier": "every pair of patterns, every query", "why_tests_cant": "Quantifies over all pattern pairs and all strings.", "anchors": ["src/regex.hpp:regex::is_independent", "src/nodes/common.hpp:extract_admission_set"]}
{"id": "C17", "title": "Minimum match size is a lower bound", "statement": "No string denoted by the pattern is shorter than the minimum match size computed for it, also when the 32-bit computation wraps.", "quantifier": "every regex tree, every string", "why_tests_cant": "All trees and all strings; wrap-around only at sizes no test reaches.", "anchors": ["src/nodes/meta.hpp:meta", "src/nodes/basic.hpp:simple::meta", "src/nodes/greedy.hpp:greedy::meta", "src/nodes/repeated.hpp:repeated::meta"]}
{"id": "C18", "title": "Matching stays inside the query", "statement": "Matching never reads a byte outside the query view and every view it returns lies inside the query, whatever memory surrounds the query. (False of the code: $, \\x{…}/\\o{…} strings, [^\\s…] and optional groups of width at least 2; recorded as refutations. Proved for every tree without those constructs.)", "quantifier": "every pattern, every query, every content of the surrounding memory", "why_tests_cant": "Undefined behaviour is usually invisible to a test, and the claim ranges over all inputs and all surrounding memory.", "anchors": ["src/terminals/common.hpp:terminal_common::match", "src/terminals/exact_matcher.hpp:match_", "src/terminals/anchors/end.hpp:end::match", "src/nodes/negated.hpp", "src/nodes/greedy.hpp:greedy::match"]}
{"id": "C19", "title": "Matching stays inside a NUL-terminated query", "statement": "For a query followed by a NUL byte (a string literal, std::string), patterns with $ and multi-byte escapes also never read past that NUL and never return a view that leaves the query.", "quantifier": "every pattern whose tree has no negated class that can fail after moving and no wide optional, every query without constraint on its content", "why_tests_cant": "Same as C18.", "anchors": ["src/terminals/exact_matcher.hpp:match_", "src/terminals/anchors/end.hpp:end::match", "src/utilities/literal_string_view.hpp"]}
{"id": "C20", "title": "An accepted match belongs to the pattern's language", "statement": "Whenever is_accepted() is true, the text to_view() is a string denoted by the pattern at that place of the query. (False of the code, e.g. aa?a accepts \"a\", \\d+a|b accepts \"12b\"; recorded as refutations. Proved for every tree that meets a decidable condition, including all possessive and single-character greedy and lazy repetitions.)", "quantifier": "every pattern, every query, every match", "why_tests_cant": "Soundness over all patterns and inputs.", "anchors": ["src/match_result.hpp:match_result", "src/nodes/common.hpp:dfs", "src/nodes/greedy.hpp:greedy::match", "src/nodes/lazy.hpp:lazy::match", "src/nodes/possessive.hpp:possessive::match"]}
{"id": "C21", "title": "An attempt does not move its own start", "statement": "A match attempt never changes where the reported match begins nor the number of capture slots; only the end, the captures and the accepted flag change.", "quantifier": "every regex tree, every query, every state", "why_tests_cant": "All trees and all intermediate states.", "anchors": ["src/nodes/common.hpp:dfs", "src/match_result.hpp:match_result_data"]}
{"id": "C22", "title": "Greedy repetition gives back only what it must", "statement": "X*, X+, X{n,m} over a single-character class take the largest number of repetitions (within the bounds) for which the rest of the pattern still matches, and fail only if no number of repetitions works.", "quantifier": "every single-character class, all bounds, every rest of the pattern that restores its position on failure, every query", "why_tests_cant": "All bounds, all run lengths, all continuations.", "anchors": ["src/nodes/greedy.hpp:greedy::match", "src/nodes/greedy.hpp:greedy::backtrack"]}
{"id": "C23", "title": "Lazy repetition takes as little as possible", "statement": "X*?, X+?, X{n,m}? take the smallest number of repetitions (within the bounds) for which the rest of the pattern matches, and fail only if none works.", "quantifier": "every single-character class, all bounds, every rest of the pattern that restores its position on failure, every query", "why_tests_cant": "All bounds, all run lengths, all continuations.", "anchors": ["src/nodes/lazy.hpp:lazy::match"]}
{"id": "C24", "title": "Possessive repetition never gives back", "statement": "X*+, X++, X{n,m}+ take the largest number of repetitions available (at most the upper bound) and then match the rest exactly once, there.", "quantifier": "every single-character class, all bounds, every rest of the pattern, every query", "why_tests_cant": "All bounds, all run lengths, all continuations.", "anchors": ["src/nodes/possessive.hpp:possessive::match"]}
{"id": "C25", "title": "Exact repetition", "statement": "X{n} consumes exactly n characters of X followed by the rest of the pattern, and fails if the next n characters are not all in X.", "quantifier": "every single-character class, every n, every query", "why_tests_cant": "All n and all queries.", "anchors": ["src/nodes/repeated.hpp:repeated::match", "src/operators/braces.hpp"]}
{"id": "C26", "title": "Character classes", "statement": "[…] matches exactly one character, one of those listed or in a listed range; [^…] exactly one character not listed. (False when \\s is listed before another item or in a negated class; recorded as refutations.)", "quantifier": "every list of class items, every query position", "why_tests_cant": "All item lists of all lengths, all 256 characters at every position.", "anchors": ["src/operators/square_brackets.hpp", "src/nodes/negated.hpp:negated_node", "src/terminals/range.hpp:range_terminal"]}
{"id": "C27", "title": "Predefined classes", "statement": "\\d, \\w, \\s and . match exactly one character of the documented set and nothing else; escaped operators match themselves.", "quantifier": "every query, position and character value", "why_tests_cant": "All character values at all positions; tests sample a handful.", "anchors": ["src/terminals/word_characters.hpp", "src/terminals/space_characters.hpp", "src/terminals/digit_characters.hpp", "src/terminals/any.hpp", "src/terminals/escaped.hpp"]}
{"id": "C28", "title": "^ anchors the match to the start of the query", "statement": "A regex that begins with ^ only accepts a match that begins at the first character of the query. (README also promises start of line: refuted.)", "quantifier": "every pattern of the form ^rest without top-level alternation, every query, the first and all later matches", "why_tests_cant": "All continuations and all queries, all calls of next().", "anchors": ["src/terminals/anchors/start.hpp:start::match", "src/operators/start_anchor.hpp", "src/match_result.hpp:match_result::next"]}
{"id": "C29", "title": "$ holds only at end of input or end of line", "statement": "A regex ending in $ accepts only if the match ends at the end of the query or directly after a newline. ($ consumes the newline, so the reported text includes it: recorded.)", "quantifier": "every query and position", "why_tests_cant": "All queries.", "anchors": ["src/terminals/anchors/end.hpp:end::match", "src/operators/end_anchor.hpp"]}
{"id": "C30", "title": "Search finds the leftmost match", "statement": "If the pattern matches at some position of the query then the result is accepted and begins at the smallest such position. (False of the code, e.g. a{2}b on \"aaab\"; recorded. Proved for trees whose failed attempts are clean or only skip positions that cannot match.)", "quantifier": "every pattern, every query", "why_tests_cant": "Completeness over all patterns and inputs.", "anchors": ["src/match_result.hpp:match_result::next", "src/match_result.hpp:match_result::match_result"]}
{"id": "C31", "title": "Successive matches are ordered and disjoint", "statement": "Each match returned by next() begins at or after the end of the previous one.", "quantifier": "every tree without wide optionals, every query, every number of next() calls", "why_tests_cant": "All histories of next() calls.", "anchors": ["src/match_result.hpp:match_result::next"]}
{"id": "C32", "title": "Constructing a result and next() terminate", "statement": "The search loop ends for every query, after at most one attempt per query position plus one. (False of the code: (?:ab)?a{2}c hangs on \"zaxxx\"; recorded. Proved for every tree without wide optionals.)", "quantifier": "every pattern, every query", "why_tests_cant": "Non-termination cannot be observed by a test, and termination ranges over all inputs.", "anchors": ["src/match_result.hpp:match_result::next"]}
{"id": "C33", "title": "Iterating over the matches ends", "statement": "A range-for over a match result visits at most as many matches as the query has characters. (False for patterns that accept the empty string, which repeat the same empty match forever: recorded. Proved for patterns that cannot accept an empty match.)", "quantifier": "every pattern that accepts no empty match, every query", "why_tests_cant": "Liveness over all queries.", "anchors": ["src/match_result.hpp:match_result::begin", "src/match_result.hpp:operator++", "src/match_result.hpp:operator!="]}
{"id": "C34", "title": "Range-for equals repeated next()", "statement": "A range-for over result r visits exactly the texts obtained by matching the query afresh and calling next() until it returns false, independently of how far r had been advanced; the loop condition holds exactly while the result is accepted.", "quantifier": "every pattern, query and history of next() calls on r", "why_tests_cant": "All histories.", "anchors": ["src/match_result.hpp:begin", "src/match_result.hpp:end", "src/match_result.hpp:operator!="]}
{"id": "C35", "title": "A failed match yields only empty strings", "statement": "If is_accepted() is false then to_view() and every group are empty (README, Decomposition). (False for groups: captures of failed attempts stay visible; recorded as refutation. Proved for to_view()/result[0], and for all groups of group-free patterns.)", "quantifier": "every pattern, query and history", "why_tests_cant": "All failing executions.", "anchors": ["src/match_result.hpp:to_view", "src/match_result.hpp:get_group", "README.md:Decomposition"]}
{"id": "C36", "title": "Captured text lies inside the query and behind the match start", "statement": "Every group view of a result is empty or lies inside the query, and begins no earlier than the point where the search that produced it began. (Inside the reported match: false, refuted.)", "quantifier": "every tree without the constructs excluded in C18, every query, every history of next() calls", "why_tests_cant": "All executions, including failed branches that leave captures.", "anchors": ["src/nodes/group.hpp:group::match", "src/match_result.hpp:get_group"]}
{"id": "C37", "title": "Alternatives are tried in order", "statement": "A|B|… takes the first alternative that matches at the current position, and fails only if none matches. (False when an alternative fails after having moved; recorded as refutation. Proved for alternatives that restore their position.)", "quantifier": "every list of alternatives, every query and position", "why_tests_cant": "All lists of alternatives and all inputs.", "anchors": ["src/nodes/common.hpp:dfs", "src/tree_builder/tree_builder.hpp", "src/operators/round_brackets.hpp"]}
{"id": "C38", "title": "Tokens partition a prefix of the input", "statement": "The tokens produced by a tokenizer are non-empty, appear in input order, do not overlap, and each one directly follows the separator matched before it (or the previous position).", "quantifier": "every list of token and separator definitions (anchored, safe patterns), every input", "why_tests_cant": "All histories of increments over all inputs.", "anchors": ["src/tokenization/iterator.hpp:iterator", "src/tokenization/tokenizer.hpp"]}
{"id": "C39", "title": "Longest match, first definition wins ties", "statement": "Each token is the longest match among all token definitions at the current position, and among equally long ones the definition listed first; likewise for separators.", "quantifier": "every list of definitions, every input and position", "why_tests_cant": "All definition lists and inputs.", "anchors": ["src/tokenization/iterator.hpp:match_token", "src/tokenization/iterator.hpp:match_separator"]}
{"id": "C40", "title": "Tokenization terminates", "statement": "Iterating a tokenizer over an input of n characters produces at most n tokens and then stops.", "quantifier": "every list of definitions (safe patterns), every input", "why_tests_cant": "Termination over all inputs.", "anchors": ["src/tokenization/iterator.hpp:operator++"]}
{"id": "C41", "title": "End detection of the token iterator", "statement": "An iterator compares equal to end() exactly when it converts to false, exactly when it carries no token; once at the end, further increments keep it at the end.", "quantifier": "every state reachable by any number of increments from any input", "why_tests_cant": "All histories.", "anchors": ["src/tokenization/iterator.hpp:operator==", "src/tokenization/iterator.hpp:operator bool", "src/tokenization/iterator.hpp:invalidate"]}
{"id": "C42", "title": "Tokens begin at the current position", "statement": "A token is matched at the current input position, never further on. (False of the code for definitions with a top-level '|', because only the first alternative is anchored: refuted. Proved for definitions without one.)", "quantifier": "every definition, every input", "why_tests_cant": "All definitions and inputs.", "anchors": ["src/tokenization/iterator.hpp:separator_splitter"]}
{"id": "C43", "title": "View comparison is content comparison", "statement": "Two query/group views compare equal exactly when they have the same length and the same characters, wherever they are stored.", "quantifier": "every pair of views in every memory", "why_tests_cant": "All pairs of views, including overlapping and aliased ones.", "anchors": ["src/utilities/literal_string_view.hpp:operator=="]}
{"id": "C44", "title": "get_expression describes an equivalent regex", "statement": "The expression returned by get_expression() compiles and denotes the same strings as the regex. (False of the code: escapes are lost, classes are printed without brackets, a zero bound is printed as empty; recorded as refutations. Proved for every pattern whose printed form is within the documented syntax, a decidable condition.)", "quantifier": "every pattern", "why_tests_cant": "A round trip over all patterns.", "anchors": ["src/regex.hpp:get_expression", "src/nodes/get_expression.hpp", "src/nodes/greedy.hpp:expression", "src/terminals/exact_matcher.hpp:expression"]}
{"id": "C45", "title": "Captured text belongs to its group's sub-pattern", "statement": "Every non-default capture result[k] is a piece of the query that the sub-pattern of a capturing group with that index matches there, also for captures that remain from earlier attempts and in results that are not accepted. (False of the code when the group's content is not sound, e.g. (a{2}b|c); recorded. Proved for every tree that meets a decidable condition.)", "quantifier": "every pattern that meets the condition, every query, every history of next() calls, every group", "why_tests_cant": "All patterns, queries and histories.", "anchors": ["src/nodes/group.hpp:match", "src/match_result.hpp:get_group"]}
{"id": "C46", "title": "Maximum match size is an upper bound", "statement": "No text matched by a pattern is longer than the maximum match size computed for it, and a pattern whose minimum and maximum agree matches only texts of that length (the optional quantifier relies on it). (False of the code for a* or a{n} followed by something, whose continuation is not counted; recorded. Proved under a decidable condition.)", "quantifier": "every pattern that meets the condition, every text", "why_tests_cant": "All patterns and texts.", "anchors": ["src/nodes/greedy.hpp:maximum_match_size", "src/nodes/repeated.hpp:maximum_match_size", "src/nodes/greedy.hpp:match"]}
{"id": "C47", "title": "A pattern means what it says", "statement": "Every well-formed pattern (characters, escapes, '.', numeric escapes with decimal/octal digits, classes, groups, alternatives, all quantifiers, '^' first and '$' last in an alternative) compiles, and the regex denotes exactly the strings that the textbook reading of its text denotes; hence every reported match is text the pattern as written stands for.", "quantifier": "every well-formed pattern of every size and nesting depth, every text", "why_tests_cant": "The parser is a recursive template over unbounded patterns; tests parse a few dozen literals.", "anchors": ["src/tokenizer.hpp:tokenizer", "src/tree_builder/tree_builder.hpp:tree_builder", "src/operators/round_brackets.hpp", "src/operators/square_brackets.hpp", "src/operators/braces.hpp", "src/operators/star.hpp", "src/operators/plus.hpp", "src/operators/optional.hpp", "src/operators/start_anchor.hpp", "src/operators/end_anchor.hpp", "src/operators/hex.hpp", "src/operators/octal.hpp"]}
{"id": "C48", "title": "The reported match is the one a backtracking matcher prefers", "statement": "Matching returns, of all matches of the pattern, the leftmost one and, among those that begin there, the one a backtracking matcher tries first: greedy quantifiers take as many repetitions as the rest allows, lazy ones as few, possessive ones the most available, alternatives are tried from left to right. next() continues in the same way behind the previous match.", "quantifier": "all patterns, all queries, all numbers of next() calls", "why_tests_cant": "The preferred match depends on the interplay of the quantifiers, the optimizer's rewriting of greedy and lazy quantifiers into possessive ones, and the positions the search skips; a test fixes one pattern and one text.", "anchors": ["src/nodes/greedy.hpp:greedy", "src/nodes/lazy.hpp:lazy", "src/nodes/possessive.hpp:possessive", "src/nodes/basic.hpp:dfs", "src/regex.hpp:__private::optimizer", "src/match_result.hpp:match_result::next"]}
{"id": "C49", "title": "The captures are those of a backtracking matcher", "statement": "When a match is reported, group n holds the text that the n-th opening parenthesis of the pattern has captured in the way a backtracking matcher prefers, among the ways to match that begin where the reported match begins; matching and next() report the leftmost match.", "quantifier": "all patterns with groups, all queries, all numbers of next() calls, all groups", "why_tests_cant": "What a group captures depends on how much its quantifiers take, which depends on what follows the group, on the numbering of the groups at compile time and on how failed attempts restore the groups; a test fixes one pattern and one text.", "anchors": ["src/nodes/group.hpp:group", "src/nodes/basic.hpp:dfs", "src/nodes/greedy.hpp:greedy", "src/nodes/lazy.hpp:lazy", "src/nodes/possessive.hpp:possessive", "src/tree_builder/tree_builder.hpp:tree_builder", "src/operators/round_brackets.hpp", "src/match_result.hpp:match_result::get_group"]}
{"id": "C50", "title": "A range-for visits all matches from left to right", "statement": "for (auto m : regex.match(query)) visits exactly the matches of the pattern found by scanning the query from left to right: each begins at the leftmost place at or behind the end of the previous one where the pattern can match, and is the one a backtracking matcher prefers there; none is left out and the loop ends. match() alone reports the first of them.", "quantifier": "all patterns that do not match the empty text, all queries", "why_tests_cant": "The list of matches depends on every position the search skips and on where every match ends; a test fixes one pattern and one text.", "anchors": ["src/match_result.hpp:match_result", "src/regex.hpp:regex::match", "src/nodes/basic.hpp:dfs", "src/nodes/possessive.hpp:possessive", "src/tree_builder/tree_builder.hpp:tree_builder"]}
{"id": "C51", "title": "Searching for literal text", "statement": "A pattern without operators finds its own text: match() reports the first occurrence, a range-for visits the occurrences from left to right without overlap, and nothing is reported if the text does not occur.", "quantifier": "all non-empty texts of characters without special meaning, all queries", "why_tests_cant": "All texts and all queries, in particular queries in which the text overlaps itself.", "anchors": ["src/match_result.hpp:match_result", "src/regex.hpp:regex::match", "src/nodes/basic.hpp:dfs", "src/nodes/possessive.hpp:possessive", "src/tree_builder/tree_builder.hpp:tree_builder"]}
{"id": "C52", "title": "Searching for one of several words", "statement": "A pattern of literal words joined by | finds, from left to right and without overlap, the places where one of the words occurs; where several words occur at the same place the one listed first is reported.", "quantifier": "all non-empty lists of non-empty words of characters without special meaning, all queries", "why_tests_cant": "All word lists (with common prefixes, repeated words, ...) and all queries.", "anchors": ["src/match_result.hpp:match_result", "src/regex.hpp:regex::match", "src/nodes/basic.hpp:dfs", "src/nodes/possessive.hpp:possessive", "src/tree_builder/tree_builder.hpp:tree_builder"]}
{"id": "C53", "title": "Searching for repetitions of a character class", "statement": "X{n}, X{n,}, X{n,m}, X+ (greedy or possessive, at least one repetition), for X a character, an escape other than \\s, . or a class that is not negated and does not list \\s, finds from left to right the places where at least n characters of X follow each other and reports as many as follow, up to m. In particular X+ splits the query into its maximal runs of characters of X.", "quantifier": "all such X, all bounds below 2^32-1, all queries", "why_tests_cant": "All classes, bounds and queries.", "anchors": ["src/match_result.hpp:match_result", "src/regex.hpp:regex::match", "src/nodes/basic.hpp:dfs", "src/nodes/possessive.hpp:possessive", "src/tree_builder/tree_builder.hpp:tree_builder"]}
{"id": "C54", "title": "Searching for text between two characters", "statement": "o[^c]*c finds, from left to right and without overlap, every character o that has a c behind it, and reports the text up to the next c.", "quantifier": "all characters o and all ASCII characters c without special meaning, all queries", "why_tests_cant": "All characters and queries.", "anchors": ["src/match_result.hpp:match_result", "src/regex.hpp:regex::match", "src/nodes/basic.hpp:dfs", "src/nodes/possessive.hpp:possessive", "src/tree_builder/tree_builder.hpp:tree_builder"]}
{"id": "C55", "title": "Checking a whole query with ^...$", "statement": "^s$ accepts a query if and only if s can match from the beginning of the query to its end or to a newline.", "quantifier": "all patterns s, all queries that are followed by a NUL", "why_tests_cant": "All patterns and queries; acceptance depends on how every quantifier of s gives back.", "anchors": ["src/terminals/anchors/start.hpp", "src/terminals/anchors/end.hpp", "src/match_result.hpp:match_result"]}
{"id": "C56", "title": "Memory further away has no influence", "statement": "If matching a query (with next() or a range-for) has no undefined behaviour when only some bytes around the query are readable, it gives the same result whatever else is readable around them. In particular a match that reads only the query depends only on the query.", "quantifier": "all patterns, all queries, all memories, all histories of next() calls", "why_tests_cant": "All memories; a test runs with one.", "anchors": ["src/match_result.hpp:match_result", "src/utilities/literal_string_view.hpp:literal_string_view", "src/terminals/common.hpp:terminal_common"]}
{"id": "C57", "title": "The tokenizer is a maximal-munch lexer", "statement": "A range-for over a tokenizer visits exactly the tokens of the text, with type, begin and end: in front of every token but the first a separator is required and skipped; separator and token are the longest that a definition matches at that place (as a backtracking matcher would), of several equally long ones the first definition; the loop ends where there is no separator or no token.", "quantifier": "all definitions of tokens and separators, all inputs", "why_tests_cant": "All inputs of all lengths and all sets of definitions; each test has one of both.", "anchors": ["src/tokenization/iterator.hpp:iterator", "src/tokenization/tokenizer.hpp:tokenizer", "src/tokenization/token.hpp:token"]}
{"id": "C58", "title": "The tokenizer of the README takes words and numbers apart", "statement": "With the definitions of the README ([a-z]+, \\d+, separator \\s) every sequence of words of letters and words of digits, joined by single white-space characters, is visited as exactly these words, in order, with the right types.", "quantifier": "all sequences of words, all lengths", "why_tests_cant": "All inputs of this form; the unit test has one.", "anchors": ["src/tokenization/iterator.hpp:iterator", "README.md", "test/tokenization.cpp"]}
{"id": "C59", "title": "Reading a result gives characters of the query", "statement": "Converting an accepted result (or one of its groups) to a string and reading it yields exactly the characters that stand in the query between the two ends of the view; a result that is not accepted, and a group without capture, read as the empty string.", "quantifier": "all patterns, queries, memory contents behind the query, and results reached by the constructor and any number of next() calls", "why_tests_cant": "Every query and every sequence of next() calls; the tests compare a few literals.", "anchors": ["src/match_result.hpp:match_result::to_view", "src/match_result.hpp:match_result::operator[]"]}
{"id": "C60", "title": "match() accepts exactly the queries that contain a text of the pattern", "statement": "A pattern without anchors stands for a set of strings (textbook definition on strings).  Matching a query is accepted if and only if some piece of the query is in this set, and then the result shows such a piece, with none beginning further to the left.", "quantifier": "all patterns without anchors in the grammar, all queries of any length", "why_tests_cant": "An equivalence with a set of strings over all queries; a test can only try some.", "anchors": ["src/match_result.hpp:match_result", "src/regex.hpp:regex::match", "src/nodes.hpp"]}
{"id": "C61", "title": "A token's text belongs to its definition", "statement": "Every token that iterating a tokenizer yields has the type of one of the token definitions, and the pattern of a definition with that type, anchored where the token is looked for, matches exactly the text of the token there.", "quantifier": "all lists of token and separator definitions, all inputs, all positions in the iteration", "why_tests_cant": "Definitions and inputs are unbounded, and which definition wins depends on all the others.", "anchors": ["src/tokenization/iterator.hpp:iterator::match_token", "src/tokenization/token.hpp:token", "src/match_result.hpp:match_result"]}
{"id": "C62", "title": "Searching for keys and values", "statement": "(a+)sep(b+), where a and b are characters, escapes or classes and sep is a character that does not belong to a, finds, from left to right and without overlap, all places where characters of a, sep and characters of b follow each other; in every result the first group is the key (up to sep) and the second the value, as long as it is. The same results are seen by next() and by a range-for. Likewise for records of any number of such fields, (a+)sep(b+)sep'(c+)..., with a group for every field.", "quantifier": "all such a, b and sep, records of any number of fields, all queries of any length, all results of the iteration", "why_tests_cant": "All queries and all classes; a test can only try some literals.", "anchors": ["src/match_result.hpp:match_result", "src/match_result.hpp:match_result::operator[]", "src/nodes/group.hpp", "README.md"]}
{"id": "C63", "title": "Malformed patterns do not compile", "statement": "A pattern with an unclosed group or class, an empty group or alternative, a quantifier with nothing to repeat, a range in the wrong order, or an escape or group syntax the library does not have, is rejected at compile time; and every pattern without such a defect compiles.", "quantifier": "all patterns of any length and nesting", "why_tests_cant": "Each pattern is a separate compilation, and a pattern that must not compile cannot appear in the test program at all.", "anchors": ["src/tree_builder/tree_builder.hpp:tree_builder", "src/operators/round_brackets.hpp", "src/operators/square_brackets.hpp", "src/operators/braces.hpp", "src/utilities/extract_delimited_content.hpp", "src/utilities/split.hpp"]}
{"id": "C64", "title": "get<N>() and structured bindings", "statement": "result.get<N>() compiles exactly for N from 0 to the number of capturing groups of the pattern and gives the same text as result[N]; auto [whole, g1, ..., gn] = result has one name for the match and one for every group, in the order of result[0], result[1], ...; neither ever reads outside the result. (Patterns that are a lone character, escape, one-item class or anchor are the exception: their results have neither; recorded.)", "quantifier": "all patterns, all queries, all results reached by the constructor and any number of next() calls, all N", "why_tests_cant": "An N that must not compile cannot appear in the test program; every pattern is a separate compilation.", "anchors": ["src/match_result.hpp:match_result::get", "src/match_result.hpp:tuple_size", "src/match_result.hpp:tuple_element"]}
{"id": "C65", "title": "When there are no more matches it stays that way", "statement": "Once a result is not accepted (match found nothing, or next() returned false), every further next() returns false immediately, without another attempt, and the result compares equal to end() and shows neither text nor captures.", "quantifier": "all patterns, all queries, all sequences of calls", "why_tests_cant": "All call sequences on all patterns and queries; tests stop at the first false.", "anchors": ["src/match_result.hpp:match_result::next", "src/match_result.hpp:match_result::end", "src/match_result.hpp:match_result::operator!="]}
{"id": "C66", "title": "is_independent is symmetric", "statement": "regex1.is_independent(regex2) and regex2.is_independent(regex1) always agree, and a pattern that is independent of itself is independent of every pattern.", "quantifier": "all pairs of patterns", "why_tests_cant": "All pairs of patterns; each pair is a separate compilation.", "anchors": ["src/regex.hpp:regex::is_independent", "src/utilities/admitted_set.hpp:admitted_sets_intersection"]}
{"id": "C67", "title": "next() depends only on the rest of the query", "statement": "After a match that ends at some place, next() finds what it finds in any other query that has the same text behind that place (patterns without ^): the same match with the same groups, moved accordingly, or nothing; and that is what matching the rest of the query by itself finds.", "quantifier": "all patterns without ^, all queries and their surroundings, all results that can be reached", "why_tests_cant": "All pairs of queries with a common rest, and all pasts of a result; tests iterate over a few fixed texts.", "anchors": ["src/match_result.hpp:match_result::next", "src/match_result.hpp:match_result::match_result", "src/nodes/greedy.hpp"]}
{"id": "C68", "title": "What part of the argument is searched", "statement": "Matching a string literal, and matching a std::string_view of the same characters, gives the same matches with the same groups, whatever lies in front of and behind the characters in memory; a char array is searched as a whole but for its last byte, not only up to its first NUL.", "quantifier": "all patterns, all texts, all memories around them, all numbers of next() calls", "why_tests_cant": "All texts and surroundings; tests pass a few literals.", "anchors": ["src/utilities/literal_string_view.hpp:literal_string_view", "src/regex.hpp:regex::operator()", "src/match_result.hpp:match_result"]}
{"id": "C69", "title": "The patterns of the README and of the benchmark find what they are for", "statement": "a(a*) finds every letter a with the letters a behind it, which are group 1; (\\d+)-(\\d+)-(\\d+) finds every date, with year, month and day in the groups; the benchmark's patterns find every mail address, every URI and every IPv4 address (numbers of two or three digits up to 255, as the pattern has them), the longest at its position; from left to right, without overlap, none left out.", "quantifier": "all queries of any length, all results of the iteration", "why_tests_cant": "All queries; the README shows one text each and the benchmark only counts.", "anchors": ["README.md", "benchmark/main.cpp:measure", "src/match_result.hpp:match_result", "src/regex.hpp:regex"]}
{"id": "C70", "title": "The patterns of the project's tests behave on every query, not only on the tested ones", "statement": "For every pattern that the project's tests use, match() and next() report on every query what a backtracking regular expression matcher reports: the leftmost match (from the end of the previous one on), the text preferred there and the text of every group; and no match only if there is none.", "quantifier": "every pattern of the test suite; all queries of any length, all memories, all numbers of next() calls", "why_tests_cant": "The tests match each pattern against one to five strings.", "anchors": ["test/regex.cpp", "test/heuristics.cpp", "test/tokenization.cpp", "src/match_result.hpp:match_result", "src/match_result.hpp:next"]}
{"id": "C71", "title": "Checking that a query has a format, and taking it apart", "statement": "A format is a list of pieces: characters, escapes or classes, each a fixed number of times, or repeated greedily and then followed by a piece (at the end: by the end of the line) that cannot be taken for more of it; no class outside parentheses lies between two parenthesised pieces; the last piece is not optional; some piece must take a character. Matching with ^, the pieces, each in parentheses or not, and $ accepts a NUL-terminated query if and only if the query, up to its end or a newline, consists of texts for the pieces one after the other. There is exactly one way to take the query apart like that, and the groups are the texts of the parenthesised pieces, in order. Examples: ^(\\d{4})-(\\d{2})-(\\d{2})$, ^(\\d+)\\.(\\d+)\\.(\\d+)$, ^-?\\d+$, ^#[0-9a-f]{6}$.", "quantifier": "all formats with any number of pieces; all queries of any length up to 2^32-2, all memories in which a NUL byte follows the query", "why_tests_cant": "The tests check a few formats on a few strings; validation is relied upon for every string that can come in, and for every format one can write.", "anchors": ["src/match_result.hpp:match_result", "src/nodes/repeated.hpp:match", "src/nodes/greedy.hpp:match", "src/nodes/group.hpp:match", "src/terminals/anchors/end.hpp:match", "src/terminals/anchors/start.hpp:match"]}
{"id": "C72", "title": "Lists with a separator", "statement": "Let a and b be characters, escapes other than \\s, or classes that are not negated and without \\s, without a character in common. A list is a text of one or more items, non-empty texts of characters of a, with exactly one character of b between any two. Matching, next() and a range-for with a+(?:b a+)* (without the space) report, from left to right and without overlap, the lists in the query: from where a match begins, the longest list that begins there, and no list begins in the text skipped. If neither a nor b takes a newline, ^a+(?:b a+)*$ accepts a NUL-terminated query if and only if the query, up to its end or a newline, is a list, and the match is the list (with the newline, if there is one). Examples: \\d+(?:,\\d+)*, ^\\w+(?:\\.\\w+)*$, ^[a-z]+(?:[,;][a-z]+)*$.", "quantifier": "all a and b of the stated form; all queries of any length up to 2^32-2, any number of items of any length; all memories (checking: in which a NUL byte follows the query); any number of next() calls", "why_tests_cant": "The tests have one or two lists of two or three items; the number and the length of items is unbounded, and backtracking into nested repetitions is where engines go wrong.", "anchors": ["src/match_result.hpp:match_result", "src/match_result.hpp:next", "src/nodes/greedy.hpp:match", "src/nodes/group.hpp:match", "src/terminals/anchors/end.hpp:match", "src/terminals/anchors/start.hpp:match"]}
{"id": "C73", "title": "Searching for texts that have a format", "statement": "A format is a list of pieces as in C71 (characters, escapes or classes, each a fixed number of times, or repeated greedily and then followed by a piece that cannot be taken for more of it; the last piece may be any; no class outside parentheses lies between two parenthesised pieces; some piece must take a character) that begins with a single unquantified character, or with a repetition without upper bound and then a single character. Matching, next() and a range-for with the pieces, each in parentheses or not, report, from left to right and without overlap, the texts in the query that have the format: no such text begins in what is skipped, each reported one is the longest that begins there, and the groups are the texts of the parenthesised pieces, in order; all ways to take such a text apart agree but for the last piece. Examples: (\\w+)=(\\d*), <([a-z]+)>, #[0-9a-f]{6}, \\$(\\d+)\\.(\\d{2}).", "quantifier": "all formats with any number of pieces that begin as stated; all queries of any length up to 2^32-2, all memories around the query; any number of next() calls", "why_tests_cant": "The tests search for a few formats in a few strings; where a failed attempt leaves the position, and hence which texts are overlooked, depends on the query and on the format.", "anchors": ["src/match_result.hpp:match_result", "src/match_result.hpp:next", "src/nodes/basic.hpp:match", "src/nodes/greedy.hpp:match", "src/nodes/group.hpp:match", "src/nodes/repeated.hpp:match"]}
{"id": "C74", "title": "Checking that a query is one of several words, with a format behind it", "statement": "For any words without operator characters, no one of which is a prefix of a word listed behind it (if a word listed behind is a prefix of an earlier one, the earlier one does not go on with a character that can come behind the word), and any format as in C71 (possibly empty, its first piece not optional), matching with ^, the words separated by | in (…) or (?:…), the pieces and $ accepts a query if and only if the query, up to its end or the end of a line, is one of the words followed by texts for the pieces. The groups are the word, if its parentheses capture, and the texts of the parenthesised pieces, in order. Examples: ^(yes|no|maybe)$, ^(?:none|not|no)$, ^(GET|POST|PUT) /(\\w+)$.", "quantifier": "all non-empty lists of words and all formats of the stated form; all queries of any length up to 2^32-2; all memories in which a NUL byte follows the query", "why_tests_cant": "The tests have two or three alternatives of a few letters; the number of words, their common prefixes and the query are unbounded.", "anchors": ["src/match_result.hpp:match_result", "src/operators/round_brackets.hpp", "src/nodes/group.hpp:match", "src/nodes/common.hpp:dfs", "src/terminals/anchors/start.hpp:match", "src/terminals/anchors/end.hpp:match"]}
{"id": "C75", "title": "Checking formats in which a place is taken by one of several words", "statement": "A form is a list of places; each place is a piece as in C71 or one of several words as in C74, in capturing parentheses or not. If it is clear where the text of each place ends (a piece has a fixed length, or what follows begins with a character that is not of the piece; no word is a prefix of a later one, and where a later one is a prefix of an earlier one the earlier one does not go on with a character that can come next), some place must take a character, and neither a class outside parentheses nor (?:…) lies between two groups, then matching with ^, the places and $ accepts a query if and only if the query, up to its end or the end of a line, is texts for the places one after the other. There is only one way to take it apart, and the groups are the texts of the places in capturing parentheses, in order. Examples: ^(\\d+)(px|em|%)$, ^(Mon|Tue|Wed), (\\d{2}) (Jan|Feb|Mar) (\\d{4})$, ^(?:https|http)://(\\w+)\\.(com|org)$.", "quantifier": "all forms with any number of places, any number of words of any length at each of them; all queries of any length up to 2^32-2; all memories in which a NUL byte follows the query", "why_tests_cant": "Tests try a few forms on a few queries; forms, words and queries are unbounded, and whether a repetition gives characters back in front of alternatives depends on all of them.", "anchors": ["src/match_result.hpp:match_result", "src/operators/round_brackets.hpp", "src/nodes/group.hpp:match", "src/nodes/greedy.hpp:greedy::optimize", "src/nodes/common.hpp:dfs", "src/terminals/anchors/start.hpp:match", "src/terminals/anchors/end.hpp:match"]}
{"id": "C76", "title": "Searching for texts that have a format with words in it", "statement": "A form is a list of places as in C75 in which it is clear where the text of each place but the last ends (of words at the last place none is a prefix of a later one), that begins with a single unquantified character or with words in (?:…), or with a repetition without upper bound and then one of these, and in which some place must take a character. Matching, next() and a range-for with the places report, from left to right and without overlap, the texts in the query that have the form: no such text begins in what is skipped, each reported one is the longest that begins there, and the groups are the texts of the places in capturing parentheses, in order; all ways to take such a text apart agree but for the last place. Examples: (?:GET|POST) /(\\w+), (\\w+)\\.(jpg|png|gif), \\d+(?:px|em|%).", "quantifier": "all forms with any number of places and of words that begin as stated; all queries of any length up to 2^32-2, all memories around the query; any number of next() calls", "why_tests_cant": "The tests search for a few alternatives in a few strings; which texts are overlooked after a failed attempt depends on the query, the words and what follows them.", "anchors": ["src/match_result.hpp:match_result", "src/match_result.hpp:next", "src/operators/round_brackets.hpp", "src/nodes/group.hpp:match", "src/nodes/common.hpp:dfs", "src/nodes/greedy.hpp:match"]}
{"id": "C77", "title": "Lists with a separator of several characters", "statement": "As C72, with a separator b1 b2 ... bn of several characters: a, b1, ..., bn are characters, escapes other than \\s, or classes that are not negated and without \\s, and a and b1 have no character in common. A list is a text of one or more items, non-empty texts of characters of a, with exactly one text of b1 b2 ... bn (one character for each) between any two. Matching, next() and a range-for with a+(?:b1 b2 ... bn a+)* report, from left to right and without overlap, the lists in the query: from where a match begins, the longest list that begins there, and no list begins in the text skipped. If none of them takes a newline, ^a+(?:b1 b2 ... bn a+)*$ accepts a NUL-terminated query if and only if the query, up to its end or a newline, is a list, and the match is the list (with the newline, if there is one). Examples: \\w+(?:, \\w+)*, ^\\d+(?:\\.\\.\\d+)*$, ^[a-z]+(?:[,;] [a-z]+)*$.", "quantifier": "all a and separators of the stated form, any number of characters in the separator; all queries of any length up to 2^32-2, any number of items of any length; all memories (checking: in which a NUL byte follows the query); any number of next() calls", "why_tests_cant": "Whether an incomplete separator at the end of a list is given back depends on the query; the number of items, and the length of items and separators, is unbounded.", "anchors": ["src/match_result.hpp:match_result", "src/match_result.hpp:next", "src/nodes/greedy.hpp:match", "src/nodes/group.hpp:match", "src/terminals/anchors/end.hpp:match", "src/terminals/anchors/start.hpp:match"]}
{"id": "C78", "title": "Lists with blanks behind the separator", "statement": "As C77, with padding behind the separator: w*, w+ or w? (greedy), where w is a character, an escape, \\s among them, or a class that is not negated and without \\s. No character of a is one of b1 or of w. A list is a text of one or more items, non-empty texts of characters of a, with exactly one text of b1 b2 ... bn, and behind it any number (at least one; at most one) of characters of w, between any two. Matching, next() and a range-for with a+(?:b1 ... bn w* a+)* report, from left to right and without overlap, the lists in the query: from where a match begins, the longest list that begins there, and no list begins in the text skipped. If neither a nor b1 takes a newline (b2, ..., bn and w may), ^a+(?:b1 ... bn w* a+)*$ accepts a NUL-terminated query if and only if the query, up to its end or some newline, is a list; there is only one such list, and the match is that list (with the newline, if there is one). Examples: \\w+(?:,\\s*\\w+)*, ^\\d+(?:; ?\\d+)*$.", "quantifier": "all a, separators and paddings of the stated form, any number of characters in the separator; all queries of any length up to 2^32-2, any number of items and any amount of padding; all memories (checking: in which a NUL byte follows the query); any number of next() calls", "why_tests_cant": "Padding is where the number of ways to take a text apart grows; whether padding without an item behind it is given back depends on the query, and its length is unbounded.", "anchors": ["src/match_result.hpp:match_result", "src/match_result.hpp:next", "src/nodes/greedy.hpp:match", "src/nodes/group.hpp:match", "src/terminals/anchors/end.hpp:match", "src/terminals/anchors/start.hpp:match"]}
{"id": "C79", "title": "Lists with a number of fields of a number of characters", "statement": "Let a, b1, ..., bn be characters, escapes other than \\s, or classes that are not negated and without \\s; a and b1 have no character in common and do not take a newline. Let K and R be greedy quantifiers other than ? (also: none, for exactly one) such that not both can be zero. ^aK(?:b1 b2 ... bn aK)R$ accepts a NUL-terminated query if and only if the query, up to its end or some newline, is fields of characters of a, each as long as K allows, as many behind the first as R allows, with exactly one text of b1 b2 ... bn between any two; there is only one such text, and the match is that text (with the newline, if there is one). Examples: ^\\d{1,3}(?:\\.\\d{1,3}){3}$ (four numbers with dots between them), ^[0-9a-f]{2}(?::[0-9a-f]{2}){5}$, ^\\w*(?:,\\w*){2,}$, ^\\w+(?:::\\w+)+$.", "quantifier": "all a, separators and quantifiers of the stated form (numbers of which the sizes computed in the pattern stay below 2^32); all queries of any length up to 2^32-2; all memories in which a NUL byte follows the query", "why_tests_cant": "Validation of addresses, versions and records is relied upon for every string that can come in; the tests have two or three of them.", "anchors": ["src/match_result.hpp:match_result", "src/nodes/repeated.hpp:match", "src/nodes/greedy.hpp:match", "src/nodes/possessive.hpp:match", "src/nodes/group.hpp:match", "src/terminals/anchors/end.hpp:match", "src/terminals/anchors/start.hpp:match"]}
{"id": "C80", "title": "A record and more records", "statement": "Let f and b g be sequences of pieces: characters, escapes other than \\s, or classes that are not negated and without \\s, each with a greedy quantifier other than ? (also: none, for exactly one); b is one such character, once; f is not empty; none takes a newline. It is clear where each piece of f and of g ends: it has a fixed number of characters, or none of its characters can come next (as the first character of what follows it in its record, up to the first piece that cannot be empty, or, if all that follows can be empty, as b). Let R be a greedy quantifier other than ?, and let the pattern take at least one character. ^f(?:b g)R$ accepts a NUL-terminated query if and only if the query, up to its end or some newline, is a text for the pieces of f, followed by texts for the pieces of b g, as many as R allows; there is only one such text, and the match is that text (with the newline, if there is one). Examples: ^\\w+=\\w*(?:&\\w+=\\w*)*$ (a query string), ^\\d{4}-\\d\\d(?:,\\d{4}-\\d\\d){1,2}$.", "quantifier": "all sequences of pieces of any length, and all quantifiers, of the stated form (numbers of which the sizes computed in the pattern stay below 2^32); all queries of any length up to 2^32-2, any number of records; all memories in which a NUL byte follows the query", "why_tests_cant": "Validation of key-value lists and tables is relied upon for every string that can come in; the number of records, their pieces and the lengths of the pieces are unbounded.", "anchors": ["src/match_result.hpp:match_result", "src/nodes/repeated.hpp:match", "src/nodes/greedy.hpp:match", "src/nodes/possessive.hpp:match", "src/nodes/group.hpp:match", "src/terminals/anchors/end.hpp:match", "src/terminals/anchors/start.hpp:match"]}
