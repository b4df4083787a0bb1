NOTES = {
"C01": ("proved", ""),
"C02": ("proved", ""),
"C03": ("proved", "value of every bound modulo 2^32, round trip for positive bounds; the zero bound prints as the empty string (refuted half recorded)"),
"C04": ("proved", "extraction is exact and complete; an unclosed group does not compile"),
"C05": ("proved", ""),
"C06": ("partial", "accepts every well-nested sequence; the converse is false of the code for stray closers, the exact characterisation is proved"),
"C07": ("partial", "C07_exact: \\xNM with hexadecimal digits is the byte it spells if and only if both digits are decimal; C07_string_exact/C07_empty/C07_odd_exact: the brace form \\x{...} exactly, any length; letters and odd-length strings refuted"),
"C08": ("proved", "octal digits; the digit 8 is accepted too (C08_eight_refuted), C08_exact and C08_value say exactly when and with which value"),
"C09": ("proved", ""),
"C10": ("proved", ""),
"C11": ("partial", "slot order proved for flat groups without classes and (?: ; what the result reports for the n-th group proved for the patterns of C49; C11_written: the number of every group of every well-formed pattern is computed from the pattern as written, and where the numbers are in order result[n+1] belongs to the n-th group, nested groups included; C11_nested_partial: the text of every group of a committed pattern (C49) is a match of its content, at any depth; refuted otherwise"),
"C12": ("proved", ""),
"C13": ("proved", ""),
"C15": ("proved", "complement: for sets within 0..127; outside it is a symmetric difference (refuted)"),
"C18": ("partial", "proved for safe trees; false of the code for $, multi-byte escapes, [^..] over \\s and wide optionals (refuted); C18_written: the condition read off the pattern as written (Spec/Tame.lean)"),
"C19": ("partial", "proved for trees safe with a NUL terminator; [^\\s] and NUL inside an escape refuted; C19_written: the condition read off the pattern as written"),
"C21": ("proved", ""),
"C31": ("partial", "proved for safe or forward trees; wide optionals refuted; C31_written: syntactic conditions"),
"C32": ("partial", "proved for safe or forward trees; (?:ab)?a{2}c hangs (refuted); C32_written: syntactic conditions"),
"C35": ("partial", "to_view and group-free patterns; C35_written: patterns whose groups come last (Spec/Final.lean); stale captures refuted otherwise"),
"C36": ("partial", "inside the query for safe trees; containment in the match and ordering refuted; C36_written: syntactic conditions; C36_inside_match: containment in the match if the groups come last"),
"C22": ("partial", "single-character repetitions in front of rests that restore their position, X* alone and inside a group, X? at the start of an attempt; false of the code for \\s, [^..], X? further on and longer parts (refuted); C22_written: from the spelling cXd to the reported text"),
"C23": ("partial", "every single-character class in front of rests that restore their position; false for rests that move when they fail (refuted); C23_written: from the spelling cXd to the reported text"),
"C24": ("proved", "every single-character class, any bounds, any rest of the pattern; C24_written: from the spelling to the reported text"),
"C25": ("proved", "every single-character class, any n, any rest of the pattern; C25_written: from the spelling to the reported text"),
"C37": ("partial", "alternatives that restore their position, and words in a group behind a character (C37_words_in_group); otherwise false (refuted)"),
"C20": ("partial", "proved for every pattern whose compiled tree meets the decidable conditions safe and snd (most patterns of the README and the tests); false of the code outside them (refuted); C20_written: with syntactic conditions on the pattern as written (Spec/Tame.lean, Spec/Sure.lean)"),
"C45": ("partial", "same conditions as C20; false outside them (refuted); C45_written, C45_numbered: the same with syntactic conditions, and the group is the one with that number"),
"C28": ("proved", "every pattern whose top-level alternatives begin with ^, and every tree anchored on all paths; README's start-of-line meaning and the empty query are refuted"),
"C29": ("proved", "every pattern whose top-level alternatives end with $; that $ consumes the newline is recorded as a refutation of the textbook zero-width meaning"),
"C38": ("partial", "definitions that meet the decidable condition of C18/C19; others can report views outside the input; C38_written: the condition on the definitions as written"),
"C39": ("proved", "all definitions and inputs, every iterator standing inside the input"),
"C40": ("partial", "definitions that meet the decidable condition of C18/C19; C40_written: on the definitions as written"),
"C41": ("proved", "all definitions, inputs and histories of increments"),
"C42": ("partial", "definitions without top-level |; false otherwise (refuted); C42_written: every well-formed definition without one"),
"C17": ("proved", "every pattern, every text; also after the heuristics; C17_written gives the value for every well-formed pattern whose sizes fit 32 bits, C17_tight when it is the length of a text"),
"C33": ("partial", "patterns that meet the conditions of C20 and have a non-zero minimum size; nullable patterns iterate forever (refuted); C33_written: the same with syntactic conditions; C33_ends_iff_partial, C33_groups_iff_partial, C33_nested_iff_partial: for regular patterns, patterns of C49 and committed patterns with nested groups, also those that match the empty text, the loop ends if and only if the query is empty or no match it comes to is empty; C33_star: a loop over the matches of X* ends if and only if the query consists of X"),
"C34": ("proved", "every pattern, query and state of the result"),
"C43": ("proved", "all memories and views"),
"C46": ("partial", "C46_exact gives the value for every well-formed pattern; C46_written_partial, C46_reported_partial: it is a bound if the longest text (computed from the pattern as written) is not longer; C46_reliable: for anchor-free patterns exactly then; also trees that meet the decidable condition maxOk; false otherwise (refuted)"),
"C16": ("partial", "what is_independent answers: exactly described for all well-formed patterns whose sizes fit 32 bits (C16_exact); it is sound for ASCII characters for the patterns as written that are covered (decidable; C16_written_partial), and for anchor-free patterns this condition is also necessary (C16_reliable); compiled trees that meet admOk; false otherwise (refuted: alternatives, nullable parts, non-ASCII)"),
"C47": ("proved", "parsing and compiling: every well-formed pattern; the end-to-end statement about reported matches needs the conditions of C20 (_partial); C47_tree gives the tree explicitly"),
    "C30": ("partial", "Proved, for every query and memory, for all patterns whose compiled tree meets decidable conditions (attempts sound, complete, and failed attempts skip no match): the README, benchmark and most test patterns meet them, and so do lists such as \\w+(?:, ?\\w+)* and parts in a row that can match nothing (b*a*?b*). C30_written_partial and C30_nested_partial state it with conditions on the pattern as written (C48, C49). Refuted elsewhere: a{2}b on aaab, (ab)c on xababc, \\d{4}-\\d{2} on 12024-05, a?b on xaab, [^,]+ on ,,a, $ on abc, \\d+a|\\d+b on 12b, (a|ab)c on abc."),
    "C14": ("partial", "Proved, for every query, for all patterns both of whose trees (as written and optimized) meet the conditions of C30: same verdict and same start. For all regular and robust patterns (decidable conditions on the pattern as written, no groups): the result of match and of every next(), and the range-for list, are the same for both trees (C14_same_results_partial); with groups, including the captures, for the patterns of C49 whose groups are stout (C14_same_captures_partial). At one node: greedy/lazy to possessive gives the same run when what follows is rejected on the class. Refuted elsewhere: \\d+[a-z0-9] on 12, (a*|b)a on aa, \\w+[.a] on ba, x(ab*)b on xabb (match lost), a?b on xaab (start), a+? on aaa (text); the heuristics also repair matches (ba? on bx, a[^b]*b on xaaab)."),
"C26": ("partial", "every class and negated class without \\s, at every position of every query (and with \\s as the last item); the search finds the first listed character for non-negated ones. Refuted: [\\sa] reports xa, [^\\s] reports two characters, the search for [^,] skips candidates"),
"C27": ("partial", "\\d \\w . escapes and plain characters: proved for every query, attempt and search; \\s: proved per attempt and for what is reported, its search skips candidates (refuted); \\D \\W \\S do not compile"),
"C44": ("partial", "patterns whose compiled tree can be read back (decidable; most patterns of README and tests, any nesting of groups, alternatives, quantifiers); C44_written_partial: the condition on the pattern as written (Spec/Printable.lean); refuted for escaped operators, zero bounds, classes and groups printed without brackets"),
"C48": ("partial", "proved, from the spelling of the pattern to the reported text, for the syntactic class of regular patterns (no groups; decidable condition on the pattern as written); the condition covers \\d+\\.?\\d*; false of others (a+?, aa?a; see also C20, C22, C23, C26, C30)"),
"C49": ("partial", "proved, from the spelling of the pattern to the text of every group, for the patterns with groups that meet a decidable condition on the pattern as written (groups not nested; the alternatives of a group that is not at the end begin with different characters, or take the same steps until they differ, or until one ends and what follows the group differs; a group may be repeated if it must take part in the match; one alternative outside the groups, or several in which nothing follows a capturing group and each restores the position); every result a program can obtain under a weaker condition; refuted for (a)[b](c), ((a)b)(c), x(a|ab)c, ^(ab?)+b, x(a)?b (keeps the capture of a failed attempt) and, as to skipped matches, (\\d\\d)-(\\d\\d); with several alternatives for (a)b|c, (a)|b|(c) and (a)(c)x|(b)y; C49_nested*: groups nested to any depth, quantified in any way, with alternatives at every level, for the patterns in which no choice has to be undone (Alts.committed, Spec/Commit.lean: decided by the next character, and every quantifier is made possessive by the heuristics or has no use for what it could give back; ^\\d+(?:,\\d+)*$, ^(\\w+)=(\\d+|t)$, ^\\s*(\\w+)\\s*=\\s*(\\d+)$ and ^(\\w+)(?:,\\w+)*$ are among them); refuted for ((a|b)c)+ (an inner group keeps the capture of a failed repetition)"),
"C50": ("partial", "regular patterns (C48) without $, and patterns with groups that meet the condition of C49 (then with the texts of the groups; nested groups by C50_nested_partial), that must take a character; C50_walk_partial: regular patterns that match the empty text too, where the loop follows the walk of Spec/Walk.lean; C50_nested_walk_partial: the same for nested groups"),
"C51": ("proved", "all non-empty texts of characters without special meaning, or written as escapes (C51_escaped_text); queries shorter than 2^32-1"),
"C52": ("proved", "all non-empty lists of such texts; queries shorter than 2^32-1"),
"C53": ("proved", "queries shorter than 2^32-1; \\s, negated classes and lazy quantifiers are outside the property (C22, C23, C26 record what happens)"),
"C54": ("proved", "queries shorter than 2^32-1; c must be ASCII and allowed inside a class without escape"),
"C55": ("partial", "patterns that are regular in the sense of C48 or meet one of the conditions of C49 (nested groups: C55_nested_partial); C55_all_digits is an instance without conditions"),
"C56": ("proved", ""),
"C57": ("partial", "definitions whose pattern, anchored with ^, meets the condition of C49, or (C57_nested_partial) the one for nested groups (no top-level |, see the refutation in C42)"),
"C58": ("proved", ""),
"C59": ("partial", "patterns that meet the condition of C18 (C19 with a NUL byte behind the query); groups additionally need a pattern without fixed-width greedy optional; C59_written: syntactic conditions"),
"C60": ("partial", "patterns that meet the condition of C30, C48 or C49 (nested groups: C60_nested_partial); refuted in general by C60_refuted_accepts and C60_refuted_misses"),
"C64": ("proved", "C64_exact: every well-formed pattern; the lone characters and anchors, for which nothing compiles, are described exactly; an index that compiles is never outside, for every pattern"),
"C65": ("proved", "all patterns, no condition"),
"C67": ("partial", "the same buffer: all well-formed patterns without ^; any two queries: those that meet the condition of C18 or C19; next() against a fresh match of the rest: those that meet the condition of C49, if the rest is not empty; false otherwise"),
"C66": ("proved", "all patterns, no condition"),
"C63": ("partial", "necessary condition for every pattern that has an outline; exact for patterns whose escapes, classes and bounds are in order; false in the other direction of stray closers, repeated quantifiers, meaningless bounds and escapes (all of them compile), and of empty alternatives, lookarounds and complement escapes (rejected)"),
"C62": ("proved", "queries shorter than 2^32-1; the classes are not negated and do not list \\s"),
"C61": ("partial", "definitions that meet the conditions of C20 as written (Spec/Tame.lean, Spec/Sure.lean)"),
"C68": ("partial", "char arrays: every pattern; a literal against a view of the same characters: patterns that meet the syntactic condition of C19 (with a NUL byte behind the view) or C18; refuted for buffers that hold more than the text, for arrays without a closing NUL and for a view that is followed by a newline when the pattern has $"),
"C70": ("partial", "46 of the 53 patterns: everything a backtracking matcher reports, on every query (C70_suite, C70_backtracking); the two with escapes for several characters: the leftmost match (C70_escapes); the IPv4 pattern: C69; false of the code for the remaining four, [a-d]?z, \\s+, \\d+\\s+123, [0-9]++\\s++123, which overlook matches in other queries than those tested (C70_refuted): nothing true of the list is missing"),
"C71": ("proved", "C71_format: any number of pieces, groups included; C71_one_way: the decomposition is unique; outside the stated formats false of the code (C71_refuted_numbering, C71_refuted_unclear)"),
"C72": ("proved", "C72_check and C72_search: any number of items; for fields that are anything but the separator, and for items with the separator behind each, false of the code (C72_refuted_fields, C72_refuted_terminated)"),
"C73": ("proved", "C73_search: any number of pieces; for formats that begin with a fixed number of characters or with a bounded repetition, false of the code (C73_refuted_fixed, C73_refuted_bounded)"),
"C74": ("proved", "C74_choice: any number of words; where a word is a prefix of a later one, or can be read on into the format, false of the code (C74_refuted_prefix, C74_refuted_behind)"),
"C75": ("proved", "C75_form, C75_one_way: any number of places and of words; where it is not clear where a piece ends, or (?:…) lies between two groups, false of the code (C75_refuted_unclear, C75_refuted_numbering)"),
"C76": ("proved", "C76_search: any number of places and of words; for forms that begin with words in a capturing group, and as to the longest text if a word at the end is a prefix of a later one, false of the code (C76_refuted_captured, C76_refuted_shorter)"),
"C77": ("proved", "C77_check and C77_search: any number of items and of characters in the separator; for separators that may begin with a character of an item, and for separators that begin with a repetition, false of the code (C77_refuted_ambiguous, C77_refuted_repeated)"),
"C78": ("proved", "C78_check and C78_search: any number of items, of characters in the separator and of padding; for padding that an item may begin with false of the code (C78_refuted_ambiguous), as for padding in front of the separator (C77_refuted_repeated)"),
"C79": ("proved", "C79_check: any bounds on the length and the number of the fields; if both quantifiers can be zero, and for searching, false of the code (C79_refuted_empty, C79_refuted_search)"),
"C80": ("proved", "C80_check: any number of records of any number of pieces, C80_one_text: the text is unique; if the end of a record is not clear, false of the code (C80_refuted_unclear)"),
"C69": ("partial", "proved for a(a*), for dates, mail addresses and IPv4 addresses, for every query shorter than 2^32-1; refuted for the URI pattern, which finds nothing in a://b/ ([^\\s...] takes two characters)"),
}
