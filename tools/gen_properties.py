#!/usr/bin/env python3
"""Writes ../properties.jsonl (one JSON object per line)."""
import json, os
P = []
def add(id, title, statement, quantifier, why, anchors):
    P.append(dict(id=id, title=title, statement=statement, quantifier=quantifier,
                  why_tests_cant=why, anchors=anchors))

add("C01", "Pattern tokenization is lossless",
    "Splitting a pattern into tokens loses, adds and reorders nothing: concatenating the tokens gives back the pattern, and a backslash is never separated from the character it escapes.",
    "every pattern string that the library can tokenize",
    "The test suite tokenizes one literal pattern; the claim is about every string of every length.",
    ["src/tokenizer.hpp:tokenizer", "src/tokenizer.hpp:extract_braces_numbers"])
add("C02", "Which patterns tokenize",
    "A pattern tokenizes (instead of failing to compile) exactly when every '{' that the scan reaches outside an escape is followed, later in the pattern, by a '}'.",
    "every pattern string",
    "An iff over all strings; a test shows single points of one side of it.",
    ["src/tokenizer.hpp:tokenizer", "src/tokenizer.hpp:extract_braces_numbers"])
add("C03", "Quantifier bounds are read as decimal numbers",
    "The bound written in {n}, {n,}, {n,m} is the decimal value of its digits (modulo 2^32), and printing a positive bound and reading it again gives the same bound. (Printing the bound 0 gives the empty string: recorded as a refutation.)",
    "every digit string; every bound below 2^32",
    "Infinitely many digit strings, including those whose value wraps; the test checks \"150\".",
    ["src/utilities/pack_string_to_number.hpp:pack_string_to_number", "src/utilities/number_to_pack_string.hpp:number_to_pack_string", "src/operators/braces.hpp"])
add("C04", "A bracketed group extends to its matching closer",
    "The content of (…), […] or {…} is everything up to the closer that matches the opener, counting nested openers and closers of the same kind, and what follows the closer is left for the rest of the pattern.",
    "every token sequence, every nesting depth",
    "Unbounded nesting depth and content.",
    ["src/utilities/extract_delimited_content.hpp:extract_delimited_content"])
add("C05", "Alternation is split only at top level and loses nothing",
    "Joining the alternatives with the separator gives back the token sequence; for a well-nested token sequence the cut points are exactly the separators outside every bracket pair.",
    "every token sequence",
    "Quantifies over all token sequences and nesting depths.",
    ["src/utilities/split.hpp:split", "src/utilities/balanced.hpp:balanced", "src/utilities/reverse.hpp:reverse"])
add("C06", "Bracket balance check",
    "The balance check accepts a token sequence exactly when its brackets are well nested. (The 'accepts only' half is false of the code for stray closers; recorded as a refutation with the exact characterisation that does hold.)",
    "every token sequence",
    "Unbounded nesting; a stack language.",
    ["src/utilities/balanced.hpp:balanced", "src/utilities/static_stack.hpp:static_stack"])
add("C07", "Hex escapes denote the byte they spell",
    "\\xN, \\xNM and \\x{…} match exactly the bytes whose hexadecimal spelling is given.",
    "every digit sequence of every length",
    "The tests use 41 and 414141 only; digits A-F are never exercised, and the brace form has unbounded length.",
    ["src/operators/hex.hpp:hex_to_bin", "src/operators/hex.hpp:tree_builder_helper"])
add("C08", "Octal escapes denote the byte they spell",
    "\\NNN and \\o{…} match exactly the bytes whose three-digit octal spelling is given.",
    "every digit triple, every sequence of triples of every length",
    "The tests use 101 only; the brace form has unbounded length.",
    ["src/operators/octal.hpp:octal_to_bin", "src/operators/octal.hpp:tree_builder_helper"])
add("C09", "groups counts the capturing parentheses",
    "For every pattern that compiles, `regex::groups` (and the number of slots of the match result) equals the number of capturing groups written in the pattern, before and after the heuristics are applied.",
    "every pattern string that compiles",
    "All patterns, all nestings of groups, classes, branches and quantifiers.",
    ["src/regex.hpp:regex::groups", "src/nodes/common.hpp:group_getter", "src/nodes/group.hpp:group::groups", "src/operators/round_brackets.hpp"])
add("C10", "Captures are always stored inside the result",
    "No pattern that compiles makes a match write a capture outside the result's array of groups, whatever the query.",
    "every pattern that compiles, every query, every execution",
    "Memory safety over all patterns and inputs; a test can only fail to observe a violation.",
    ["src/nodes/group.hpp:group::match", "src/match_result.hpp:match_result_data", "src/operators/round_brackets.hpp", "src/tree_builder/tree_builder.hpp"])
add("C11", "result[n] is the n-th group",
    "result[n] holds the text of the n-th capturing parenthesis of the pattern, counted from the left: distinct groups use distinct slots. (False of the code after a character class, a nested group or a group-free branch; recorded as refutations.)",
    "every pattern with any number of groups",
    "All combinations of groups with classes, nesting and branches.",
    ["src/nodes/common.hpp:base::next_group_index", "src/nodes/group.hpp:group::next_group_index", "src/operators/round_brackets.hpp", "src/operators/square_brackets.hpp"])
add("C12", "The optimizer terminates in a fixpoint",
    "Applying the heuristics repeatedly stops for every regex tree, and the result is stable: applying them again changes nothing.",
    "every regex tree (hence every pattern that compiles)",
    "Termination over an infinite domain; compile-time recursion without a bound.",
    ["src/regex.hpp:__private::optimizer", "src/nodes/basic.hpp:simple::optimize", "src/nodes/greedy.hpp:greedy::optimize", "src/nodes/lazy.hpp:lazy::optimize"])
add("C13", "The optimizer only removes choice points and wrappers",
    "The heuristics keep the number of groups, the group slots, and the set of strings denoted by the pattern (read as a regular expression, possessive and lazy quantifiers denoting the same strings as greedy ones).",
    "every regex tree",
    "All trees of every size, with every combination of nodes.",
    ["src/nodes/basic.hpp:simple::optimize", "src/nodes/group.hpp:group::optimize", "src/nodes/greedy.hpp:greedy::optimize", "src/nodes/lazy.hpp:lazy::optimize"])
add("C14", "Heuristics do not alter what is matched",
    "README: 'Those heuristics will not alter the matched set of the regex.' Matching with the optimized tree finds a match exactly when matching with the tree as written does. (False of the code, e.g. \\d+[a-z0-9]; recorded as refutations. Proved: greedy and lazy removal preserve the backtracking result whenever the first-character sets used are sound.)",
    "every pattern and query",
    "An equivalence between two matchers over all patterns and all inputs.",
    ["README.md:Heuristics", "src/nodes/greedy.hpp:greedy::optimize", "src/nodes/lazy.hpp:lazy::optimize", "src/nodes/basic.hpp:simple::admission_set"])
add("C15", "First-character set algebra is exact",
    "Merging, intersecting and complementing admitted-character sets compute union, intersection and complement within 0..127, and keep the sets strictly increasing; asking a set for a character answers membership.",
    "every pair of strictly increasing character sets",
    "All sets; the test instantiates three.",
    ["src/utilities/admitted_set.hpp"])
add("C16", "is_independent is sound",
    "If a.is_independent(b) is true then no character can begin both a match of a and a match of b. (False of the code for alternations, classes, groups with a continuation and characters outside 0..127; recorded as refutations.)",
    "every pair of patterns, every query",
    "Quantifies over all pattern pairs and all strings.",
    ["src/regex.hpp:regex::is_independent", "src/nodes/common.hpp:extract_admission_set"])
add("C17", "Minimum match size is a lower bound",
    "No string denoted by the pattern is shorter than the minimum match size computed for it, also when the 32-bit computation wraps.",
    "every regex tree, every string",
    "All trees and all strings; wrap-around only at sizes no test reaches.",
    ["src/nodes/meta.hpp:meta", "src/nodes/basic.hpp:simple::meta", "src/nodes/greedy.hpp:greedy::meta", "src/nodes/repeated.hpp:repeated::meta"])
add("C18", "Matching stays inside the query",
    "Matching never reads a byte outside the query view and every view it returns lies inside the query, whatever memory surrounds the query. (False of the code: $, \\x{…}/\\o{…} strings, [^\\s…] and optional groups of width at least 2; recorded as refutations. Proved for every tree without those constructs.)",
    "every pattern, every query, every content of the surrounding memory",
    "Undefined behaviour is usually invisible to a test, and the claim ranges over all inputs and all surrounding memory.",
    ["src/terminals/common.hpp:terminal_common::match", "src/terminals/exact_matcher.hpp:match_", "src/terminals/anchors/end.hpp:end::match", "src/nodes/negated.hpp", "src/nodes/greedy.hpp:greedy::match"])
add("C19", "Matching stays inside a NUL-terminated query",
    "For a query followed by a NUL byte (a string literal, std::string), patterns with $ and multi-byte escapes also never read past that NUL and never return a view that leaves the query.",
    "every pattern whose tree has no negated class that can fail after moving and no wide optional, every query without constraint on its content",
    "Same as C18.",
    ["src/terminals/exact_matcher.hpp:match_", "src/terminals/anchors/end.hpp:end::match", "src/utilities/literal_string_view.hpp"])
add("C20", "An accepted match belongs to the pattern's language",
    "Whenever is_accepted() is true, the text to_view() is a string denoted by the pattern at that place of the query. (False of the code, e.g. aa?a accepts \"a\", \\d+a|b accepts \"12b\"; recorded as refutations. Proved for every tree that meets a decidable condition, including all possessive and single-character greedy and lazy repetitions.)",
    "every pattern, every query, every match",
    "Soundness over all patterns and inputs.",
    ["src/match_result.hpp:match_result", "src/nodes/common.hpp:dfs", "src/nodes/greedy.hpp:greedy::match", "src/nodes/lazy.hpp:lazy::match", "src/nodes/possessive.hpp:possessive::match"])
add("C21", "An attempt does not move its own start",
    "A match attempt never changes where the reported match begins nor the number of capture slots; only the end, the captures and the accepted flag change.",
    "every regex tree, every query, every state",
    "All trees and all intermediate states.",
    ["src/nodes/common.hpp:dfs", "src/match_result.hpp:match_result_data"])
add("C22", "Greedy repetition gives back only what it must",
    "X*, X+, X{n,m} over a single-character class take the largest number of repetitions (within the bounds) for which the rest of the pattern still matches, and fail only if no number of repetitions works.",
    "every single-character class, all bounds, every rest of the pattern that restores its position on failure, every query",
    "All bounds, all run lengths, all continuations.",
    ["src/nodes/greedy.hpp:greedy::match", "src/nodes/greedy.hpp:greedy::backtrack"])
add("C23", "Lazy repetition takes as little as possible",
    "X*?, X+?, X{n,m}? take the smallest number of repetitions (within the bounds) for which the rest of the pattern matches, and fail only if none works.",
    "every single-character class, all bounds, every rest of the pattern that restores its position on failure, every query",
    "All bounds, all run lengths, all continuations.",
    ["src/nodes/lazy.hpp:lazy::match"])
add("C24", "Possessive repetition never gives back",
    "X*+, X++, X{n,m}+ take the largest number of repetitions available (at most the upper bound) and then match the rest exactly once, there.",
    "every single-character class, all bounds, every rest of the pattern, every query",
    "All bounds, all run lengths, all continuations.",
    ["src/nodes/possessive.hpp:possessive::match"])
add("C25", "Exact repetition",
    "X{n} consumes exactly n characters of X followed by the rest of the pattern, and fails if the next n characters are not all in X.",
    "every single-character class, every n, every query",
    "All n and all queries.",
    ["src/nodes/repeated.hpp:repeated::match", "src/operators/braces.hpp"])
add("C26", "Character classes",
    "[…] matches exactly one character, one of those listed or in a listed range; [^…] exactly one character not listed. (False when \\s is listed before another item or in a negated class; recorded as refutations.)",
    "every list of class items, every query position",
    "All item lists of all lengths, all 256 characters at every position.",
    ["src/operators/square_brackets.hpp", "src/nodes/negated.hpp:negated_node", "src/terminals/range.hpp:range_terminal"])
add("C27", "Predefined classes",
    "\\d, \\w, \\s and . match exactly one character of the documented set and nothing else; escaped operators match themselves.",
    "every query, position and character value",
    "All character values at all positions; tests sample a handful.",
    ["src/terminals/word_characters.hpp", "src/terminals/space_characters.hpp", "src/terminals/digit_characters.hpp", "src/terminals/any.hpp", "src/terminals/escaped.hpp"])
add("C28", "^ anchors the match to the start of the query",
    "A regex that begins with ^ only accepts a match that begins at the first character of the query. (README also promises start of line: refuted.)",
    "every pattern of the form ^rest without top-level alternation, every query, the first and all later matches",
    "All continuations and all queries, all calls of next().",
    ["src/terminals/anchors/start.hpp:start::match", "src/operators/start_anchor.hpp", "src/match_result.hpp:match_result::next"])
add("C29", "$ holds only at end of input or end of line",
    "A regex ending in $ accepts only if the match ends at the end of the query or directly after a newline. ($ consumes the newline, so the reported text includes it: recorded.)",
    "every query and position",
    "All queries.",
    ["src/terminals/anchors/end.hpp:end::match", "src/operators/end_anchor.hpp"])
add("C30", "Search finds the leftmost match",
    "If the pattern matches at some position of the query then the result is accepted and begins at the smallest such position. (False of the code, e.g. a{2}b on \"aaab\"; recorded. Proved for trees whose failed attempts are clean or only skip positions that cannot match.)",
    "every pattern, every query",
    "Completeness over all patterns and inputs.",
    ["src/match_result.hpp:match_result::next", "src/match_result.hpp:match_result::match_result"])
add("C31", "Successive matches are ordered and disjoint",
    "Each match returned by next() begins at or after the end of the previous one.",
    "every tree without wide optionals, every query, every number of next() calls",
    "All histories of next() calls.",
    ["src/match_result.hpp:match_result::next"])
add("C32", "Constructing a result and next() terminate",
    "The search loop ends for every query, after at most one attempt per query position plus one. (False of the code: (?:ab)?a{2}c hangs on \"zaxxx\"; recorded. Proved for every tree without wide optionals.)",
    "every pattern, every query",
    "Non-termination cannot be observed by a test, and termination ranges over all inputs.",
    ["src/match_result.hpp:match_result::next"])
add("C33", "Iterating over the matches ends",
    "A range-for over a match result visits at most as many matches as the query has characters. (False for patterns that accept the empty string, which repeat the same empty match forever: recorded. Proved for patterns that cannot accept an empty match.)",
    "every pattern that accepts no empty match, every query",
    "Liveness over all queries.",
    ["src/match_result.hpp:match_result::begin", "src/match_result.hpp:operator++", "src/match_result.hpp:operator!="])
add("C34", "Range-for equals repeated next()",
    "A range-for over result r visits exactly the texts obtained by matching the query afresh and calling next() until it returns false, independently of how far r had been advanced; the loop condition holds exactly while the result is accepted.",
    "every pattern, query and history of next() calls on r",
    "All histories.",
    ["src/match_result.hpp:begin", "src/match_result.hpp:end", "src/match_result.hpp:operator!="])
add("C35", "A failed match yields only empty strings",
    "If is_accepted() is false then to_view() and every group are empty (README, Decomposition). (False for groups: captures of failed attempts stay visible; recorded as refutation. Proved for to_view()/result[0], and for all groups of group-free patterns.)",
    "every pattern, query and history",
    "All failing executions.",
    ["src/match_result.hpp:to_view", "src/match_result.hpp:get_group", "README.md:Decomposition"])
add("C36", "Captured text lies inside the query and behind the match start",
    "Every group view of a result is empty or lies inside the query, and begins no earlier than the point where the search that produced it began. (Inside the reported match: false, refuted.)",
    "every tree without the constructs excluded in C18, every query, every history of next() calls",
    "All executions, including failed branches that leave captures.",
    ["src/nodes/group.hpp:group::match", "src/match_result.hpp:get_group"])
add("C37", "Alternatives are tried in order",
    "A|B|… takes the first alternative that matches at the current position, and fails only if none matches. (False when an alternative fails after having moved; recorded as refutation. Proved for alternatives that restore their position.)",
    "every list of alternatives, every query and position",
    "All lists of alternatives and all inputs.",
    ["src/nodes/common.hpp:dfs", "src/tree_builder/tree_builder.hpp", "src/operators/round_brackets.hpp"])
add("C38", "Tokens partition a prefix of the input",
    "The tokens produced by a tokenizer are non-empty, appear in input order, do not overlap, and each one directly follows the separator matched before it (or the previous position).",
    "every list of token and separator definitions (anchored, safe patterns), every input",
    "All histories of increments over all inputs.",
    ["src/tokenization/iterator.hpp:iterator", "src/tokenization/tokenizer.hpp"])
add("C39", "Longest match, first definition wins ties",
    "Each token is the longest match among all token definitions at the current position, and among equally long ones the definition listed first; likewise for separators.",
    "every list of definitions, every input and position",
    "All definition lists and inputs.",
    ["src/tokenization/iterator.hpp:match_token", "src/tokenization/iterator.hpp:match_separator"])
add("C40", "Tokenization terminates",
    "Iterating a tokenizer over an input of n characters produces at most n tokens and then stops.",
    "every list of definitions (safe patterns), every input",
    "Termination over all inputs.",
    ["src/tokenization/iterator.hpp:operator++"])
add("C41", "End detection of the token iterator",
    "An iterator compares equal to end() exactly when it converts to false, exactly when it carries no token; once at the end, further increments keep it at the end.",
    "every state reachable by any number of increments from any input",
    "All histories.",
    ["src/tokenization/iterator.hpp:operator==", "src/tokenization/iterator.hpp:operator bool", "src/tokenization/iterator.hpp:invalidate"])
add("C42", "Tokens begin at the current position",
    "A token is matched at the current input position, never further on. (False of the code for definitions with a top-level '|', because only the first alternative is anchored: refuted. Proved for definitions without one.)",
    "every definition, every input",
    "All definitions and inputs.",
    ["src/tokenization/iterator.hpp:separator_splitter"])
add("C43", "View comparison is content comparison",
    "Two query/group views compare equal exactly when they have the same length and the same characters, wherever they are stored.",
    "every pair of views in every memory",
    "All pairs of views, including overlapping and aliased ones.",
    ["src/utilities/literal_string_view.hpp:operator=="])
add("C44", "get_expression describes an equivalent regex",
    "The expression returned by get_expression() compiles and denotes the same strings as the regex. (False of the code: escapes are lost, classes are printed without brackets, a zero bound is printed as empty; recorded as refutations. Proved for every pattern whose printed form is within the documented syntax, a decidable condition.)",
    "every pattern",
    "A round trip over all patterns.",
    ["src/regex.hpp:get_expression", "src/nodes/get_expression.hpp", "src/nodes/greedy.hpp:expression", "src/terminals/exact_matcher.hpp:expression"])
add("C45", "Captured text belongs to its group's sub-pattern",
    "Every non-default capture result[k] is a piece of the query that the sub-pattern of a capturing group with that index matches there, also for captures that remain from earlier attempts and in results that are not accepted. (False of the code when the group's content is not sound, e.g. (a{2}b|c); recorded. Proved for every tree that meets a decidable condition.)",
    "every pattern that meets the condition, every query, every history of next() calls, every group",
    "All patterns, queries and histories.",
    ["src/nodes/group.hpp:match", "src/match_result.hpp:get_group"])
add("C46", "Maximum match size is an upper bound",
    "No text matched by a pattern is longer than the maximum match size computed for it, and a pattern whose minimum and maximum agree matches only texts of that length (the optional quantifier relies on it). (False of the code for a* or a{n} followed by something, whose continuation is not counted; recorded. Proved under a decidable condition.)",
    "every pattern that meets the condition, every text",
    "All patterns and texts.",
    ["src/nodes/greedy.hpp:maximum_match_size", "src/nodes/repeated.hpp:maximum_match_size", "src/nodes/greedy.hpp:match"])
add("C47", "A pattern means what it says",
    "Every well-formed pattern (characters, escapes, '.', numeric escapes with decimal/octal digits, classes, groups, alternatives, all quantifiers, '^' first and '$' last in an alternative) compiles, and the regex denotes exactly the strings that the textbook reading of its text denotes; hence every reported match is text the pattern as written stands for.",
    "every well-formed pattern of every size and nesting depth, every text",
    "The parser is a recursive template over unbounded patterns; tests parse a few dozen literals.",
    ["src/tokenizer.hpp:tokenizer", "src/tree_builder/tree_builder.hpp:tree_builder", "src/operators/round_brackets.hpp", "src/operators/square_brackets.hpp", "src/operators/braces.hpp", "src/operators/star.hpp", "src/operators/plus.hpp", "src/operators/optional.hpp", "src/operators/start_anchor.hpp", "src/operators/end_anchor.hpp", "src/operators/hex.hpp", "src/operators/octal.hpp"])
add("C48", "The reported match is the one a backtracking matcher prefers",
 "Matching returns, of all matches of the pattern, the leftmost one and, among those that begin there, the one a backtracking matcher tries first: greedy quantifiers take as many repetitions as the rest allows, lazy ones as few, possessive ones the most available, alternatives are tried from left to right. next() continues in the same way behind the previous match.",
 "all patterns, all queries, all numbers of next() calls",
 "The preferred match depends on the interplay of the quantifiers, the optimizer's rewriting of greedy and lazy quantifiers into possessive ones, and the positions the search skips; a test fixes one pattern and one text.",
 ["src/nodes/greedy.hpp:greedy", "src/nodes/lazy.hpp:lazy", "src/nodes/possessive.hpp:possessive", "src/nodes/basic.hpp:dfs", "src/regex.hpp:__private::optimizer", "src/match_result.hpp:match_result::next"])
add("C49", "The captures are those of a backtracking matcher",
 "When a match is reported, group n holds the text that the n-th opening parenthesis of the pattern has captured in the way a backtracking matcher prefers, among the ways to match that begin where the reported match begins; matching and next() report the leftmost match.",
 "all patterns with groups, all queries, all numbers of next() calls, all groups",
 "What a group captures depends on how much its quantifiers take, which depends on what follows the group, on the numbering of the groups at compile time and on how failed attempts restore the groups; a test fixes one pattern and one text.",
 ["src/nodes/group.hpp:group", "src/nodes/basic.hpp:dfs", "src/nodes/greedy.hpp:greedy", "src/nodes/lazy.hpp:lazy", "src/nodes/possessive.hpp:possessive", "src/tree_builder/tree_builder.hpp:tree_builder", "src/operators/round_brackets.hpp", "src/match_result.hpp:match_result::get_group"])
add("C50", "A range-for visits all matches from left to right",
 "for (auto m : regex.match(query)) visits exactly the matches of the pattern found by scanning the query from left to right: each begins at the leftmost place at or behind the end of the previous one where the pattern can match, and is the one a backtracking matcher prefers there; none is left out and the loop ends. match() alone reports the first of them.",
 "all patterns that do not match the empty text, all queries",
 "The list of matches depends on every position the search skips and on where every match ends; a test fixes one pattern and one text.",
 ["src/match_result.hpp:match_result", "src/regex.hpp:regex::match", "src/nodes/basic.hpp:dfs", "src/nodes/possessive.hpp:possessive", "src/tree_builder/tree_builder.hpp:tree_builder"])
add("C51", "Searching for literal text",
 "A pattern without operators finds its own text: match() reports the first occurrence, a range-for visits the occurrences from left to right without overlap, and nothing is reported if the text does not occur.",
 "all non-empty texts of characters without special meaning, all queries",
 "All texts and all queries, in particular queries in which the text overlaps itself.",
 ["src/match_result.hpp:match_result", "src/regex.hpp:regex::match", "src/nodes/basic.hpp:dfs", "src/nodes/possessive.hpp:possessive", "src/tree_builder/tree_builder.hpp:tree_builder"])
add("C52", "Searching for one of several words",
 "A pattern of literal words joined by | finds, from left to right and without overlap, the places where one of the words occurs; where several words occur at the same place the one listed first is reported.",
 "all non-empty lists of non-empty words of characters without special meaning, all queries",
 "All word lists (with common prefixes, repeated words, ...) and all queries.",
 ["src/match_result.hpp:match_result", "src/regex.hpp:regex::match", "src/nodes/basic.hpp:dfs", "src/nodes/possessive.hpp:possessive", "src/tree_builder/tree_builder.hpp:tree_builder"])
add("C53", "Searching for repetitions of a character class",
 "X{n}, X{n,}, X{n,m}, X+ (greedy or possessive, at least one repetition), for X a character, an escape other than \\s, . or a class that is not negated and does not list \\s, finds from left to right the places where at least n characters of X follow each other and reports as many as follow, up to m. In particular X+ splits the query into its maximal runs of characters of X.",
 "all such X, all bounds below 2^32-1, all queries",
 "All classes, bounds and queries.",
 ["src/match_result.hpp:match_result", "src/regex.hpp:regex::match", "src/nodes/basic.hpp:dfs", "src/nodes/possessive.hpp:possessive", "src/tree_builder/tree_builder.hpp:tree_builder"])
add("C54", "Searching for text between two characters",
 "o[^c]*c finds, from left to right and without overlap, every character o that has a c behind it, and reports the text up to the next c.",
 "all characters o and all ASCII characters c without special meaning, all queries",
 "All characters and queries.",
 ["src/match_result.hpp:match_result", "src/regex.hpp:regex::match", "src/nodes/basic.hpp:dfs", "src/nodes/possessive.hpp:possessive", "src/tree_builder/tree_builder.hpp:tree_builder"])
add("C55", "Checking a whole query with ^...$",
 "^s$ accepts a query if and only if s can match from the beginning of the query to its end or to a newline.",
 "all patterns s, all queries that are followed by a NUL",
 "All patterns and queries; acceptance depends on how every quantifier of s gives back.",
 ["src/terminals/anchors/start.hpp", "src/terminals/anchors/end.hpp", "src/match_result.hpp:match_result"])
add("C56", "Memory further away has no influence",
 "If matching a query (with next() or a range-for) has no undefined behaviour when only some bytes around the query are readable, it gives the same result whatever else is readable around them. In particular a match that reads only the query depends only on the query.",
 "all patterns, all queries, all memories, all histories of next() calls",
 "All memories; a test runs with one.",
 ["src/match_result.hpp:match_result", "src/utilities/literal_string_view.hpp:literal_string_view", "src/terminals/common.hpp:terminal_common"])

add("C57", "The tokenizer is a maximal-munch lexer",
 "A range-for over a tokenizer visits exactly the tokens of the text, with type, begin and end: in front of every token but the first a separator is required and skipped; separator and token are the longest that a definition matches at that place (as a backtracking matcher would), of several equally long ones the first definition; the loop ends where there is no separator or no token.",
 "all definitions of tokens and separators, all inputs",
 "All inputs of all lengths and all sets of definitions; each test has one of both.",
 ["src/tokenization/iterator.hpp:iterator", "src/tokenization/tokenizer.hpp:tokenizer", "src/tokenization/token.hpp:token"])
add("C58", "The tokenizer of the README takes words and numbers apart",
 "With the definitions of the README ([a-z]+, \\d+, separator \\s) every sequence of words of letters and words of digits, joined by single white-space characters, is visited as exactly these words, in order, with the right types.",
 "all sequences of words, all lengths",
 "All inputs of this form; the unit test has one.",
 ["src/tokenization/iterator.hpp:iterator", "README.md", "test/tokenization.cpp"])

add("C59", "Reading a result gives characters of the query",
 "Converting an accepted result (or one of its groups) to a string and reading it yields exactly the characters that stand in the query between the two ends of the view; a result that is not accepted, and a group without capture, read as the empty string.",
 "all patterns, queries, memory contents behind the query, and results reached by the constructor and any number of next() calls",
 "Every query and every sequence of next() calls; the tests compare a few literals.",
 ["src/match_result.hpp:match_result::to_view", "src/match_result.hpp:match_result::operator[]"])
add("C60", "match() accepts exactly the queries that contain a text of the pattern",
 "A pattern without anchors stands for a set of strings (textbook definition on strings).  Matching a query is accepted if and only if some piece of the query is in this set, and then the result shows such a piece, with none beginning further to the left.",
 "all patterns without anchors in the grammar, all queries of any length",
 "An equivalence with a set of strings over all queries; a test can only try some.",
 ["src/match_result.hpp:match_result", "src/regex.hpp:regex::match", "src/nodes.hpp"])

add("C61", "A token's text belongs to its definition",
 "Every token that iterating a tokenizer yields has the type of one of the token definitions, and the pattern of a definition with that type, anchored where the token is looked for, matches exactly the text of the token there.",
 "all lists of token and separator definitions, all inputs, all positions in the iteration",
 "Definitions and inputs are unbounded, and which definition wins depends on all the others.",
 ["src/tokenization/iterator.hpp:iterator::match_token", "src/tokenization/token.hpp:token", "src/match_result.hpp:match_result"])

add("C62", "Searching for keys and values",
 "(a+)sep(b+), where a and b are characters, escapes or classes and sep is a character that does not belong to a, finds, from left to right and without overlap, all places where characters of a, sep and characters of b follow each other; in every result the first group is the key (up to sep) and the second the value, as long as it is. The same results are seen by next() and by a range-for. Likewise for records of any number of such fields, (a+)sep(b+)sep'(c+)..., with a group for every field.",
 "all such a, b and sep, records of any number of fields, all queries of any length, all results of the iteration",
 "All queries and all classes; a test can only try some literals.",
 ["src/match_result.hpp:match_result", "src/match_result.hpp:match_result::operator[]", "src/nodes/group.hpp", "README.md"])

add("C63", "Malformed patterns do not compile",
 "A pattern with an unclosed group or class, an empty group or alternative, a quantifier with nothing to repeat, a range in the wrong order, or an escape or group syntax the library does not have, is rejected at compile time; and every pattern without such a defect compiles.",
 "all patterns of any length and nesting",
 "Each pattern is a separate compilation, and a pattern that must not compile cannot appear in the test program at all.",
 ["src/tree_builder/tree_builder.hpp:tree_builder", "src/operators/round_brackets.hpp", "src/operators/square_brackets.hpp", "src/operators/braces.hpp", "src/utilities/extract_delimited_content.hpp", "src/utilities/split.hpp"])

add("C64", "get<N>() and structured bindings",
 "result.get<N>() compiles exactly for N from 0 to the number of capturing groups of the pattern and gives the same text as result[N]; auto [whole, g1, ..., gn] = result has one name for the match and one for every group, in the order of result[0], result[1], ...; neither ever reads outside the result. (Patterns that are a lone character, escape, one-item class or anchor are the exception: their results have neither; recorded.)",
 "all patterns, all queries, all results reached by the constructor and any number of next() calls, all N",
 "An N that must not compile cannot appear in the test program; every pattern is a separate compilation.",
 ["src/match_result.hpp:match_result::get", "src/match_result.hpp:tuple_size", "src/match_result.hpp:tuple_element"])

add("C65", "When there are no more matches it stays that way",
 "Once a result is not accepted (match found nothing, or next() returned false), every further next() returns false immediately, without another attempt, and the result compares equal to end() and shows neither text nor captures.",
 "all patterns, all queries, all sequences of calls",
 "All call sequences on all patterns and queries; tests stop at the first false.",
 ["src/match_result.hpp:match_result::next", "src/match_result.hpp:match_result::end", "src/match_result.hpp:match_result::operator!="])

add("C66", "is_independent is symmetric",
 "regex1.is_independent(regex2) and regex2.is_independent(regex1) always agree, and a pattern that is independent of itself is independent of every pattern.",
 "all pairs of patterns",
 "All pairs of patterns; each pair is a separate compilation.",
 ["src/regex.hpp:regex::is_independent", "src/utilities/admitted_set.hpp:admitted_sets_intersection"])

add("C67", "next() depends only on the rest of the query",
 "After a match that ends at some place, next() finds what it finds in any other query that has the same text behind that place (patterns without ^): the same match with the same groups, moved accordingly, or nothing; and that is what matching the rest of the query by itself finds.",
 "all patterns without ^, all queries and their surroundings, all results that can be reached",
 "All pairs of queries with a common rest, and all pasts of a result; tests iterate over a few fixed texts.",
 ["src/match_result.hpp:match_result::next", "src/match_result.hpp:match_result::match_result", "src/nodes/greedy.hpp"])

add("C68", "What part of the argument is searched",
 "Matching a string literal, and matching a std::string_view of the same characters, gives the same matches with the same groups, whatever lies in front of and behind the characters in memory; a char array is searched as a whole but for its last byte, not only up to its first NUL.",
 "all patterns, all texts, all memories around them, all numbers of next() calls",
 "All texts and surroundings; tests pass a few literals.",
 ["src/utilities/literal_string_view.hpp:literal_string_view", "src/regex.hpp:regex::operator()", "src/match_result.hpp:match_result"])

add("C69", "The patterns of the README and of the benchmark find what they are for",
 "a(a*) finds every letter a with the letters a behind it, which are group 1; (\\d+)-(\\d+)-(\\d+) finds every date, with year, month and day in the groups; the benchmark's patterns find every mail address, every URI and every IPv4 address (numbers of two or three digits up to 255, as the pattern has them), the longest at its position; from left to right, without overlap, none left out.",
 "all queries of any length, all results of the iteration",
 "All queries; the README shows one text each and the benchmark only counts.",
 ["README.md", "benchmark/main.cpp:measure", "src/match_result.hpp:match_result", "src/regex.hpp:regex"])

add("C70", "The patterns of the project's tests behave on every query, not only on the tested ones",
 "For every pattern that the project's tests use, match() and next() report on every query what a backtracking regular expression matcher reports: the leftmost match (from the end of the previous one on), the text preferred there and the text of every group; and no match only if there is none.",
 "every pattern of the test suite; all queries of any length, all memories, all numbers of next() calls",
 "The tests match each pattern against one to five strings.",
 ["test/regex.cpp", "test/heuristics.cpp", "test/tokenization.cpp", "src/match_result.hpp:match_result", "src/match_result.hpp:next"])

add("C71", "Checking that a query has a format, and taking it apart",
 "A format is a list of pieces: characters, escapes or classes, each a fixed number of times, or repeated greedily and then followed by a piece (at the end: by the end of the line) that cannot be taken for more of it; no class outside parentheses lies between two parenthesised pieces; the last piece is not optional; some piece must take a character. Matching with ^, the pieces, each in parentheses or not, and $ accepts a NUL-terminated query if and only if the query, up to its end or a newline, consists of texts for the pieces one after the other. There is exactly one way to take the query apart like that, and the groups are the texts of the parenthesised pieces, in order. Examples: ^(\\d{4})-(\\d{2})-(\\d{2})$, ^(\\d+)\\.(\\d+)\\.(\\d+)$, ^-?\\d+$, ^#[0-9a-f]{6}$.",
 "all formats with any number of pieces; all queries of any length up to 2^32-2, all memories in which a NUL byte follows the query",
 "The tests check a few formats on a few strings; validation is relied upon for every string that can come in, and for every format one can write.",
 ["src/match_result.hpp:match_result", "src/nodes/repeated.hpp:match", "src/nodes/greedy.hpp:match", "src/nodes/group.hpp:match", "src/terminals/anchors/end.hpp:match", "src/terminals/anchors/start.hpp:match"])

add("C72", "Lists with a separator",
 "Let a and b be characters, escapes other than \\s, or classes that are not negated and without \\s, without a character in common. A list is a text of one or more items, non-empty texts of characters of a, with exactly one character of b between any two. Matching, next() and a range-for with a+(?:b a+)* (without the space) report, from left to right and without overlap, the lists in the query: from where a match begins, the longest list that begins there, and no list begins in the text skipped. If neither a nor b takes a newline, ^a+(?:b a+)*$ accepts a NUL-terminated query if and only if the query, up to its end or a newline, is a list, and the match is the list (with the newline, if there is one). Examples: \\d+(?:,\\d+)*, ^\\w+(?:\\.\\w+)*$, ^[a-z]+(?:[,;][a-z]+)*$.",
 "all a and b of the stated form; all queries of any length up to 2^32-2, any number of items of any length; all memories (checking: in which a NUL byte follows the query); any number of next() calls",
 "The tests have one or two lists of two or three items; the number and the length of items is unbounded, and backtracking into nested repetitions is where engines go wrong.",
 ["src/match_result.hpp:match_result", "src/match_result.hpp:next", "src/nodes/greedy.hpp:match", "src/nodes/group.hpp:match", "src/terminals/anchors/end.hpp:match", "src/terminals/anchors/start.hpp:match"])

add("C73", "Searching for texts that have a format",
 "A format is a list of pieces as in C71 (characters, escapes or classes, each a fixed number of times, or repeated greedily and then followed by a piece that cannot be taken for more of it; the last piece may be any; no class outside parentheses lies between two parenthesised pieces; some piece must take a character) that begins with a single unquantified character, or with a repetition without upper bound and then a single character. Matching, next() and a range-for with the pieces, each in parentheses or not, report, from left to right and without overlap, the texts in the query that have the format: no such text begins in what is skipped, each reported one is the longest that begins there, and the groups are the texts of the parenthesised pieces, in order; all ways to take such a text apart agree but for the last piece. Examples: (\\w+)=(\\d*), <([a-z]+)>, #[0-9a-f]{6}, \\$(\\d+)\\.(\\d{2}).",
 "all formats with any number of pieces that begin as stated; all queries of any length up to 2^32-2, all memories around the query; any number of next() calls",
 "The tests search for a few formats in a few strings; where a failed attempt leaves the position, and hence which texts are overlooked, depends on the query and on the format.",
 ["src/match_result.hpp:match_result", "src/match_result.hpp:next", "src/nodes/basic.hpp:match", "src/nodes/greedy.hpp:match", "src/nodes/group.hpp:match", "src/nodes/repeated.hpp:match"])

add("C74", "Checking that a query is one of several words, with a format behind it",
 "For any words without operator characters, no one of which is a prefix of a word listed behind it (if a word listed behind is a prefix of an earlier one, the earlier one does not go on with a character that can come behind the word), and any format as in C71 (possibly empty, its first piece not optional), matching with ^, the words separated by | in (…) or (?:…), the pieces and $ accepts a query if and only if the query, up to its end or the end of a line, is one of the words followed by texts for the pieces. The groups are the word, if its parentheses capture, and the texts of the parenthesised pieces, in order. Examples: ^(yes|no|maybe)$, ^(?:none|not|no)$, ^(GET|POST|PUT) /(\\w+)$.",
 "all non-empty lists of words and all formats of the stated form; all queries of any length up to 2^32-2; all memories in which a NUL byte follows the query",
 "The tests have two or three alternatives of a few letters; the number of words, their common prefixes and the query are unbounded.",
 ["src/match_result.hpp:match_result", "src/operators/round_brackets.hpp", "src/nodes/group.hpp:match", "src/nodes/common.hpp:dfs", "src/terminals/anchors/start.hpp:match", "src/terminals/anchors/end.hpp:match"])

add("C75", "Checking formats in which a place is taken by one of several words",
 "A form is a list of places; each place is a piece as in C71 or one of several words as in C74, in capturing parentheses or not. If it is clear where the text of each place ends (a piece has a fixed length, or what follows begins with a character that is not of the piece; no word is a prefix of a later one, and where a later one is a prefix of an earlier one the earlier one does not go on with a character that can come next), some place must take a character, and neither a class outside parentheses nor (?:…) lies between two groups, then matching with ^, the places and $ accepts a query if and only if the query, up to its end or the end of a line, is texts for the places one after the other. There is only one way to take it apart, and the groups are the texts of the places in capturing parentheses, in order. Examples: ^(\\d+)(px|em|%)$, ^(Mon|Tue|Wed), (\\d{2}) (Jan|Feb|Mar) (\\d{4})$, ^(?:https|http)://(\\w+)\\.(com|org)$.",
 "all forms with any number of places, any number of words of any length at each of them; all queries of any length up to 2^32-2; all memories in which a NUL byte follows the query",
 "Tests try a few forms on a few queries; forms, words and queries are unbounded, and whether a repetition gives characters back in front of alternatives depends on all of them.",
 ["src/match_result.hpp:match_result", "src/operators/round_brackets.hpp", "src/nodes/group.hpp:match", "src/nodes/greedy.hpp:greedy::optimize", "src/nodes/common.hpp:dfs", "src/terminals/anchors/start.hpp:match", "src/terminals/anchors/end.hpp:match"])

add("C76", "Searching for texts that have a format with words in it",
 "A form is a list of places as in C75 in which it is clear where the text of each place but the last ends (of words at the last place none is a prefix of a later one), that begins with a single unquantified character or with words in (?:…), or with a repetition without upper bound and then one of these, and in which some place must take a character. Matching, next() and a range-for with the places report, from left to right and without overlap, the texts in the query that have the form: no such text begins in what is skipped, each reported one is the longest that begins there, and the groups are the texts of the places in capturing parentheses, in order; all ways to take such a text apart agree but for the last place. Examples: (?:GET|POST) /(\\w+), (\\w+)\\.(jpg|png|gif), \\d+(?:px|em|%).",
 "all forms with any number of places and of words that begin as stated; all queries of any length up to 2^32-2, all memories around the query; any number of next() calls",
 "The tests search for a few alternatives in a few strings; which texts are overlooked after a failed attempt depends on the query, the words and what follows them.",
 ["src/match_result.hpp:match_result", "src/match_result.hpp:next", "src/operators/round_brackets.hpp", "src/nodes/group.hpp:match", "src/nodes/common.hpp:dfs", "src/nodes/greedy.hpp:match"])

add("C77", "Lists with a separator of several characters",
 "As C72, with a separator b1 b2 ... bn of several characters: a, b1, ..., bn are characters, escapes other than \\s, or classes that are not negated and without \\s, and a and b1 have no character in common. A list is a text of one or more items, non-empty texts of characters of a, with exactly one text of b1 b2 ... bn (one character for each) between any two. Matching, next() and a range-for with a+(?:b1 b2 ... bn a+)* report, from left to right and without overlap, the lists in the query: from where a match begins, the longest list that begins there, and no list begins in the text skipped. If none of them takes a newline, ^a+(?:b1 b2 ... bn a+)*$ accepts a NUL-terminated query if and only if the query, up to its end or a newline, is a list, and the match is the list (with the newline, if there is one). Examples: \\w+(?:, \\w+)*, ^\\d+(?:\\.\\.\\d+)*$, ^[a-z]+(?:[,;] [a-z]+)*$.",
 "all a and separators of the stated form, any number of characters in the separator; all queries of any length up to 2^32-2, any number of items of any length; all memories (checking: in which a NUL byte follows the query); any number of next() calls",
 "Whether an incomplete separator at the end of a list is given back depends on the query; the number of items, and the length of items and separators, is unbounded.",
 ["src/match_result.hpp:match_result", "src/match_result.hpp:next", "src/nodes/greedy.hpp:match", "src/nodes/group.hpp:match", "src/terminals/anchors/end.hpp:match", "src/terminals/anchors/start.hpp:match"])

add("C78", "Lists with blanks behind the separator",
 "As C77, with padding behind the separator: w*, w+ or w? (greedy), where w is a character, an escape, \\s among them, or a class that is not negated and without \\s. No character of a is one of b1 or of w. A list is a text of one or more items, non-empty texts of characters of a, with exactly one text of b1 b2 ... bn, and behind it any number (at least one; at most one) of characters of w, between any two. Matching, next() and a range-for with a+(?:b1 ... bn w* a+)* report, from left to right and without overlap, the lists in the query: from where a match begins, the longest list that begins there, and no list begins in the text skipped. If neither a nor b1 takes a newline (b2, ..., bn and w may), ^a+(?:b1 ... bn w* a+)*$ accepts a NUL-terminated query if and only if the query, up to its end or some newline, is a list; there is only one such list, and the match is that list (with the newline, if there is one). Examples: \\w+(?:,\\s*\\w+)*, ^\\d+(?:; ?\\d+)*$.",
 "all a, separators and paddings of the stated form, any number of characters in the separator; all queries of any length up to 2^32-2, any number of items and any amount of padding; all memories (checking: in which a NUL byte follows the query); any number of next() calls",
 "Padding is where the number of ways to take a text apart grows; whether padding without an item behind it is given back depends on the query, and its length is unbounded.",
 ["src/match_result.hpp:match_result", "src/match_result.hpp:next", "src/nodes/greedy.hpp:match", "src/nodes/group.hpp:match", "src/terminals/anchors/end.hpp:match", "src/terminals/anchors/start.hpp:match"])

add("C79", "Lists with a number of fields of a number of characters",
 "Let a, b1, ..., bn be characters, escapes other than \\s, or classes that are not negated and without \\s; a and b1 have no character in common and do not take a newline. Let K and R be greedy quantifiers other than ? (also: none, for exactly one) such that not both can be zero. ^aK(?:b1 b2 ... bn aK)R$ accepts a NUL-terminated query if and only if the query, up to its end or some newline, is fields of characters of a, each as long as K allows, as many behind the first as R allows, with exactly one text of b1 b2 ... bn between any two; there is only one such text, and the match is that text (with the newline, if there is one). Examples: ^\\d{1,3}(?:\\.\\d{1,3}){3}$ (four numbers with dots between them), ^[0-9a-f]{2}(?::[0-9a-f]{2}){5}$, ^\\w*(?:,\\w*){2,}$, ^\\w+(?:::\\w+)+$.",
 "all a, separators and quantifiers of the stated form (numbers of which the sizes computed in the pattern stay below 2^32); all queries of any length up to 2^32-2; all memories in which a NUL byte follows the query",
 "Validation of addresses, versions and records is relied upon for every string that can come in; the tests have two or three of them.",
 ["src/match_result.hpp:match_result", "src/nodes/repeated.hpp:match", "src/nodes/greedy.hpp:match", "src/nodes/possessive.hpp:match", "src/nodes/group.hpp:match", "src/terminals/anchors/end.hpp:match", "src/terminals/anchors/start.hpp:match"])

add("C80", "A record and more records",
 "Let f and b g be sequences of pieces: characters, escapes other than \\s, or classes that are not negated and without \\s, each with a greedy quantifier other than ? (also: none, for exactly one); b is one such character, once; f is not empty; none takes a newline. It is clear where each piece of f and of g ends: it has a fixed number of characters, or none of its characters can come next (as the first character of what follows it in its record, up to the first piece that cannot be empty, or, if all that follows can be empty, as b). Let R be a greedy quantifier other than ?, and let the pattern take at least one character. ^f(?:b g)R$ accepts a NUL-terminated query if and only if the query, up to its end or some newline, is a text for the pieces of f, followed by texts for the pieces of b g, as many as R allows; there is only one such text, and the match is that text (with the newline, if there is one). Examples: ^\\w+=\\w*(?:&\\w+=\\w*)*$ (a query string), ^\\d{4}-\\d\\d(?:,\\d{4}-\\d\\d){1,2}$.",
 "all sequences of pieces of any length, and all quantifiers, of the stated form (numbers of which the sizes computed in the pattern stay below 2^32); all queries of any length up to 2^32-2, any number of records; all memories in which a NUL byte follows the query",
 "Validation of key-value lists and tables is relied upon for every string that can come in; the number of records, their pieces and the lengths of the pieces are unbounded.",
 ["src/match_result.hpp:match_result", "src/nodes/repeated.hpp:match", "src/nodes/greedy.hpp:match", "src/nodes/possessive.hpp:match", "src/nodes/group.hpp:match", "src/terminals/anchors/end.hpp:match", "src/terminals/anchors/start.hpp:match"])

out = os.path.join(os.path.dirname(os.path.abspath(__file__)), "..", "properties.jsonl")
with open(out, "w") as f:
    for p in P:
        f.write(json.dumps(p, ensure_ascii=False) + "\n")
print(len(P))
