{
 "claims": [
  {
   "property": "C01",
   "status": "proved",
   "theorems": [
    "ERegex.Props.C01_tokens_concat",
    "ERegex.Props.C01_tokens_exact",
    "ERegex.Props.C01_escape_kept"
   ],
   "note": ""
  },
  {
   "property": "C02",
   "status": "proved",
   "theorems": [
    "ERegex.Props.C02_tokenizes_iff",
    "ERegex.Props.C02_no_brace",
    "ERegex.Props.C02_unclosed"
   ],
   "note": ""
  },
  {
   "property": "C03",
   "status": "proved",
   "theorems": [
    "ERegex.Props.C03_bound_value",
    "ERegex.Props.C03_bound_exists",
    "ERegex.Props.C03_round_trip",
    "ERegex.Props.C03_printed_digits",
    "ERegex.Props.C03_zero_refuted",
    "ERegex.Props.C03_exact_bound",
    "ERegex.Props.C03_min_bound",
    "ERegex.Props.C03_range_bound"
   ],
   "note": "value of every bound modulo 2^32, round trip for positive bounds; the zero bound prints as the empty string (refuted half recorded)"
  },
  {
   "property": "C04",
   "status": "proved",
   "theorems": [
    "ERegex.Props.C04_extract_matching",
    "ERegex.Props.C04_extract_only",
    "ERegex.Props.C04_unclosed_group"
   ],
   "note": "extraction is exact and complete; an unclosed group does not compile"
  },
  {
   "property": "C05",
   "status": "proved",
   "theorems": [
    "ERegex.Props.C05_join",
    "ERegex.Props.C05_split_exact",
    "ERegex.Props.C05_cuts_all"
   ],
   "note": ""
  },
  {
   "property": "C06",
   "status": "partial",
   "theorems": [
    "ERegex.Props.C06_balanced_iff",
    "ERegex.Props.C06_accepts",
    "ERegex.Props.C06_wellNested_iff",
    "ERegex.Props.C06_stray_closer_refuted"
   ],
   "note": "accepts every well-nested sequence; the converse is false of the code for stray closers, the exact characterisation is proved"
  },
  {
   "property": "C07",
   "status": "partial",
   "theorems": [
    "ERegex.Props.C07_finds_partial",
    "ERegex.Props.C07_hex_two_digits_partial",
    "ERegex.Props.C07_hex_one_digit_partial",
    "ERegex.Props.C07_hex_string_partial",
    "ERegex.Props.C07_letters_refuted",
    "ERegex.Props.C07_letter_witness",
    "ERegex.Props.C07_exact",
    "ERegex.Props.C07_odd_refuted",
    "ERegex.Props.C07_string_exact",
    "ERegex.Props.C07_empty",
    "ERegex.Props.C07_odd_exact"
   ],
   "note": "C07_exact: \\xNM with hexadecimal digits is the byte it spells if and only if both digits are decimal; C07_string_exact/C07_empty/C07_odd_exact: the brace form \\x{...} exactly, any length; letters and odd-length strings refuted"
  },
  {
   "property": "C08",
   "status": "proved",
   "theorems": [
    "ERegex.Props.C08_finds",
    "ERegex.Props.C08_octal",
    "ERegex.Props.C08_needs_three",
    "ERegex.Props.C08_octal_string",
    "ERegex.Props.C08_eight_refuted",
    "ERegex.Props.C08_exact",
    "ERegex.Props.C08_value",
    "ERegex.Props.C08_string_exact",
    "ERegex.Props.C08_length"
   ],
   "note": "octal digits; the digit 8 is accepted too (C08_eight_refuted), C08_exact and C08_value say exactly when and with which value"
  },
  {
   "property": "C09",
   "status": "proved",
   "theorems": [
    "ERegex.Props.C09_groups_count",
    "ERegex.Props.C09_groups_optimized",
    "ERegex.Props.C09_result_slots",
    "ERegex.Props.C09_written"
   ],
   "note": ""
  },
  {
   "property": "C10",
   "status": "proved",
   "theorems": [
    "ERegex.Props.C10_slots_in_array",
    "ERegex.Props.C10_no_write_outside",
    "ERegex.Props.C10_frame",
    "ERegex.Props.C10_written"
   ],
   "note": ""
  },
  {
   "property": "C11",
   "status": "partial",
   "theorems": [
    "ERegex.Props.C11_result_is_nth_group_partial",
    "ERegex.Props.C11_slot_order_partial",
    "ERegex.Props.C11_refuted_class",
    "ERegex.Props.C11_refuted_nested",
    "ERegex.Props.C11_refuted_branch",
    "ERegex.Props.C11_refuted_branch2",
    "ERegex.Props.C11_refuted_noncapture",
    "ERegex.Props.C11_nested_partial",
    "ERegex.Props.C11_written_partial",
    "ERegex.Props.C11_refuted_always_empty"
   ],
   "note": "slot order proved for flat groups without classes and (?: ; what the result reports for the n-th group proved for the patterns of C49; C11_written: the number of every group of every well-formed pattern is computed from the pattern as written, and where the numbers are in order result[n+1] belongs to the n-th group, nested groups included; C11_nested_partial: the text of every group of a committed pattern (C49) is a match of its content, at any depth; refuted otherwise"
  },
  {
   "property": "C12",
   "status": "proved",
   "theorems": [
    "ERegex.Props.C12_terminates",
    "ERegex.Props.C12_fixpoint",
    "ERegex.Props.C12_fuel_irrelevant",
    "ERegex.Props.C12_idempotent"
   ],
   "note": ""
  },
  {
   "property": "C13",
   "status": "proved",
   "theorems": [
    "ERegex.Props.C13_same_language",
    "ERegex.Props.C13_same_slots"
   ],
   "note": ""
  },
  {
   "property": "C14",
   "status": "partial",
   "theorems": [
    "ERegex.Props.C14_same_matches_partial",
    "ERegex.Props.C14_greedy_as_possessive_partial",
    "ERegex.Props.C14_lazy_as_possessive_partial",
    "ERegex.Props.C14_refuted",
    "ERegex.Props.C14_refuted_start",
    "ERegex.Props.C14_refuted_text",
    "ERegex.Props.C14_greedy_only_if_apart_partial",
    "ERegex.Props.C14_lazy_only_if_apart_partial",
    "ERegex.Props.C14_in_group_only_if_apart_partial",
    "ERegex.Props.C14_same_results_partial",
    "ERegex.Props.C14_same_captures_partial",
    "ERegex.Props.C14_refuted_lost_match",
    "ERegex.Props.C14_refuted_repairs",
    "ERegex.Props.C14_refuted_wrong_match"
   ],
   "note": "Proved, for every query, for all patterns both of whose trees (as written and optimized) meet the conditions of C30: same verdict and same start. For all regular and robust patterns (decidable conditions on the pattern as written, no groups): the result of match and of every next(), and the range-for list, are the same for both trees (C14_same_results_partial); with groups, including the captures, for the patterns of C49 whose groups are stout (C14_same_captures_partial). At one node: greedy/lazy to possessive gives the same run when what follows is rejected on the class. Refuted elsewhere: \\d+[a-z0-9] on 12, (a*|b)a on aa, \\w+[.a] on ba, x(ab*)b on xabb (match lost), a?b on xaab (start), a+? on aaa (text); the heuristics also repair matches (ba? on bx, a[^b]*b on xaaab)."
  },
  {
   "property": "C15",
   "status": "proved",
   "theorems": [
    "ERegex.Props.C15_merge_mem",
    "ERegex.Props.C15_intersect_mem",
    "ERegex.Props.C15_complement_mem",
    "ERegex.Props.C15_complement_general",
    "ERegex.Props.C15_refuted_non_ascii",
    "ERegex.Props.C15_range_mem",
    "ERegex.Props.C15_sorted",
    "ERegex.Props.C15_can_admit",
    "ERegex.Props.C15_range_sorted"
   ],
   "note": "complement: for sets within 0..127; outside it is a symmetric difference (refuted)"
  },
  {
   "property": "C16",
   "status": "partial",
   "theorems": [
    "ERegex.Props.C16_independent_partial",
    "ERegex.Props.C16_refuted_alternatives",
    "ERegex.Props.C16_refuted_nullable",
    "ERegex.Props.C16_refuted_non_ascii",
    "ERegex.Props.C16_exact",
    "ERegex.Props.C16_written_partial",
    "ERegex.Props.C16_reliable"
   ],
   "note": "what is_independent answers: exactly described for all well-formed patterns whose sizes fit 32 bits (C16_exact); it is sound for ASCII characters for the patterns as written that are covered (decidable; C16_written_partial), and for anchor-free patterns this condition is also necessary (C16_reliable); compiled trees that meet admOk; false otherwise (refuted: alternatives, nullable parts, non-ASCII)"
  },
  {
   "property": "C17",
   "status": "proved",
   "theorems": [
    "ERegex.Props.C17_min_size_lower_bound",
    "ERegex.Props.C17_min_size_compiled",
    "ERegex.Props.C17_min_size_kept",
    "ERegex.Props.C17_tight",
    "ERegex.Props.C17_written"
   ],
   "note": "every pattern, every text; also after the heuristics; C17_written gives the value for every well-formed pattern whose sizes fit 32 bits, C17_tight when it is the length of a text"
  },
  {
   "property": "C18",
   "status": "partial",
   "theorems": [
    "ERegex.Props.C18_stays_inside_partial",
    "ERegex.Props.C18_refuted_end_anchor",
    "ERegex.Props.C18_refuted_hex_string",
    "ERegex.Props.C18_refuted_negated_space",
    "ERegex.Props.C18_refuted_wide_optional",
    "ERegex.Props.C18_written_partial"
   ],
   "note": "proved for safe trees; false of the code for $, multi-byte escapes, [^..] over \\s and wide optionals (refuted); C18_written: the condition read off the pattern as written (Spec/Tame.lean)"
  },
  {
   "property": "C19",
   "status": "partial",
   "theorems": [
    "ERegex.Props.C19_stays_inside_nul_partial",
    "ERegex.Props.C19_refuted_negated_space",
    "ERegex.Props.C19_refuted_nul_escape",
    "ERegex.Props.C19_written_partial"
   ],
   "note": "proved for trees safe with a NUL terminator; [^\\s] and NUL inside an escape refuted; C19_written: the condition read off the pattern as written"
  },
  {
   "property": "C20",
   "status": "partial",
   "theorems": [
    "ERegex.Props.C20_refuted_decimal",
    "ERegex.Props.C20_refuted_spaces",
    "ERegex.Props.C20_refuted_trailing",
    "ERegex.Props.C20_accepted_in_language_partial",
    "ERegex.Props.C20_refuted_optional",
    "ERegex.Props.C20_refuted_alternatives",
    "ERegex.Props.C20_refuted_giving_back",
    "ERegex.Props.C20_refuted_class_lazy",
    "ERegex.Props.C20_refuted_half_round",
    "ERegex.Props.C20_written_partial"
   ],
   "note": "proved for every pattern whose compiled tree meets the decidable conditions safe and snd (most patterns of the README and the tests); false of the code outside them (refuted); C20_written: with syntactic conditions on the pattern as written (Spec/Tame.lean, Spec/Sure.lean)"
  },
  {
   "property": "C21",
   "status": "proved",
   "theorems": [
    "ERegex.Props.C21_attempt_keeps_start",
    "ERegex.Props.C21_attempt_keeps_other_slots"
   ],
   "note": ""
  },
  {
   "property": "C22",
   "status": "partial",
   "theorems": [
    "ERegex.Props.C22_written",
    "ERegex.Props.C22_greedy_takes_most_partial",
    "ERegex.Props.C22_greedy_alone_partial",
    "ERegex.Props.C22_greedy_in_group_partial",
    "ERegex.Props.C22_optional_partial",
    "ERegex.Props.C22_refuted_space",
    "ERegex.Props.C22_refuted_optional",
    "ERegex.Props.C22_refuted_negated",
    "ERegex.Props.C22_refuted_long"
   ],
   "note": "single-character repetitions in front of rests that restore their position, X* alone and inside a group, X? at the start of an attempt; false of the code for \\s, [^..], X? further on and longer parts (refuted); C22_written: from the spelling cXd to the reported text"
  },
  {
   "property": "C23",
   "status": "partial",
   "theorems": [
    "ERegex.Props.C23_written",
    "ERegex.Props.C23_lazy_takes_least_partial",
    "ERegex.Props.C23_refuted"
   ],
   "note": "every single-character class in front of rests that restore their position; false for rests that move when they fail (refuted); C23_written: from the spelling cXd to the reported text"
  },
  {
   "property": "C24",
   "status": "proved",
   "theorems": [
    "ERegex.Props.C24_written",
    "ERegex.Props.C24_never_gives_back",
    "ERegex.Props.C24_possessive"
   ],
   "note": "every single-character class, any bounds, any rest of the pattern; C24_written: from the spelling to the reported text"
  },
  {
   "property": "C25",
   "status": "proved",
   "theorems": [
    "ERegex.Props.C25_written",
    "ERegex.Props.C25_exact"
   ],
   "note": "every single-character class, any n, any rest of the pattern; C25_written: from the spelling to the reported text"
  },
  {
   "property": "C26",
   "status": "partial",
   "theorems": [
    "ERegex.Props.C26_class_partial",
    "ERegex.Props.C26_negated_partial",
    "ERegex.Props.C26_last_space_partial",
    "ERegex.Props.C26_space_first_refuted",
    "ERegex.Props.C26_negated_search_refuted",
    "ERegex.Props.C26_negated_space_refuted"
   ],
   "note": "every class and negated class without \\s, at every position of every query (and with \\s as the last item); the search finds the first listed character for non-negated ones. Refuted: [\\sa] reports xa, [^\\s] reports two characters, the search for [^,] skips candidates"
  },
  {
   "property": "C27",
   "status": "partial",
   "theorems": [
    "ERegex.Props.C27_digit",
    "ERegex.Props.C27_word",
    "ERegex.Props.C27_any",
    "ERegex.Props.C27_space_partial",
    "ERegex.Props.C27_escaped",
    "ERegex.Props.C27_control",
    "ERegex.Props.C27_plain",
    "ERegex.Props.C27_space_search_refuted",
    "ERegex.Props.C27_complement_refuted"
   ],
   "note": "\\d \\w . escapes and plain characters: proved for every query, attempt and search; \\s: proved per attempt and for what is reported, its search skips candidates (refuted); \\D \\W \\S do not compile"
  },
  {
   "property": "C28",
   "status": "proved",
   "theorems": [
    "ERegex.Props.C28_caret_anchors",
    "ERegex.Props.C28_refuses_elsewhere",
    "ERegex.Props.C28_anchored_tree",
    "ERegex.Props.C28_refuted_line",
    "ERegex.Props.C28_refuted_empty",
    "ERegex.Props.C28_refuted_alternative"
   ],
   "note": "every pattern whose top-level alternatives begin with ^, and every tree anchored on all paths; README's start-of-line meaning and the empty query are refuted"
  },
  {
   "property": "C29",
   "status": "proved",
   "theorems": [
    "ERegex.Props.C29_dollar_anchors",
    "ERegex.Props.C29_dollar_anchors_nul",
    "ERegex.Props.C29_refuted_zero_width"
   ],
   "note": "every pattern whose top-level alternatives end with $; that $ consumes the newline is recorded as a refutation of the textbook zero-width meaning"
  },
  {
   "property": "C30",
   "status": "partial",
   "theorems": [
    "ERegex.Props.C30_refuted_quoted",
    "ERegex.Props.C30_refuted_separator",
    "ERegex.Props.C30_refuted_sign",
    "ERegex.Props.C30_leftmost_partial",
    "ERegex.Props.C30_next_partial",
    "ERegex.Props.C30_nonempty_partial",
    "ERegex.Props.C30_refuted_repeat",
    "ERegex.Props.C30_refuted_group",
    "ERegex.Props.C30_refuted_optional",
    "ERegex.Props.C30_refuted_negated",
    "ERegex.Props.C30_refuted_end",
    "ERegex.Props.C30_refuted_alternative",
    "ERegex.Props.C30_refuted_no_backtrack",
    "ERegex.Props.C30_refuted_width",
    "ERegex.Props.C30_written_partial",
    "ERegex.Props.C30_nested_partial"
   ],
   "note": "Proved, for every query and memory, for all patterns whose compiled tree meets decidable conditions (attempts sound, complete, and failed attempts skip no match): the README, benchmark and most test patterns meet them, and so do lists such as \\w+(?:, ?\\w+)* and parts in a row that can match nothing (b*a*?b*). C30_written_partial and C30_nested_partial state it with conditions on the pattern as written (C48, C49). Refuted elsewhere: a{2}b on aaab, (ab)c on xababc, \\d{4}-\\d{2} on 12024-05, a?b on xaab, [^,]+ on ,,a, $ on abc, \\d+a|\\d+b on 12b, (a|ab)c on abc."
  },
  {
   "property": "C31",
   "status": "partial",
   "theorems": [
    "ERegex.Props.C31_ordered_disjoint_partial",
    "ERegex.Props.C31_refuted_wide_optional",
    "ERegex.Props.C31_written_partial"
   ],
   "note": "proved for safe or forward trees; wide optionals refuted; C31_written: syntactic conditions"
  },
  {
   "property": "C32",
   "status": "partial",
   "theorems": [
    "ERegex.Props.C32_terminates_partial",
    "ERegex.Props.C32_refuted_hang",
    "ERegex.Props.C32_written_partial"
   ],
   "note": "proved for safe or forward trees; (?:ab)?a{2}c hangs (refuted); C32_written: syntactic conditions"
  },
  {
   "property": "C33",
   "status": "partial",
   "theorems": [
    "ERegex.Props.C33_ends_iff_partial",
    "ERegex.Props.C33_groups_iff_partial",
    "ERegex.Props.C33_star",
    "ERegex.Props.C33_refuted_decimal",
    "ERegex.Props.C33_iteration_ends_partial",
    "ERegex.Props.C33_refuted_empty_match",
    "ERegex.Props.C33_nested_iff_partial",
    "ERegex.Props.C33_written_partial"
   ],
   "note": "patterns that meet the conditions of C20 and have a non-zero minimum size; nullable patterns iterate forever (refuted); C33_written: the same with syntactic conditions; C33_ends_iff_partial, C33_groups_iff_partial, C33_nested_iff_partial: for regular patterns, patterns of C49 and committed patterns with nested groups, also those that match the empty text, the loop ends if and only if the query is empty or no match it comes to is empty; C33_star: a loop over the matches of X* ends if and only if the query consists of X"
  },
  {
   "property": "C34",
   "status": "proved",
   "theorems": [
    "ERegex.Props.C34_range_for",
    "ERegex.Props.C34_independent",
    "ERegex.Props.C34_loop_condition"
   ],
   "note": "every pattern, query and state of the result"
  },
  {
   "property": "C35",
   "status": "partial",
   "theorems": [
    "ERegex.Props.C35_written_partial",
    "ERegex.Props.C35_failed_is_empty_partial",
    "ERegex.Props.C35_refuted_stale_capture"
   ],
   "note": "to_view and group-free patterns; C35_written: patterns whose groups come last (Spec/Final.lean); stale captures refuted otherwise"
  },
  {
   "property": "C36",
   "status": "partial",
   "theorems": [
    "ERegex.Props.C36_inside_match_partial",
    "ERegex.Props.C36_groups_inside_partial",
    "ERegex.Props.C36_refuted_outside_match",
    "ERegex.Props.C36_refuted_negative_length",
    "ERegex.Props.C36_written_partial"
   ],
   "note": "inside the query for safe trees; containment in the match and ordering refuted; C36_written: syntactic conditions; C36_inside_match: containment in the match if the groups come last"
  },
  {
   "property": "C37",
   "status": "partial",
   "theorems": [
    "ERegex.Props.C37_words_in_group",
    "ERegex.Props.C37_alternatives_in_order_partial",
    "ERegex.Props.C37_refuted"
   ],
   "note": "alternatives that restore their position, and words in a group behind a character (C37_words_in_group); otherwise false (refuted)"
  },
  {
   "property": "C38",
   "status": "partial",
   "theorems": [
    "ERegex.Props.C38_tokens_in_order_partial",
    "ERegex.Props.C38_written_partial"
   ],
   "note": "definitions that meet the decidable condition of C18/C19; others can report views outside the input; C38_written: the condition on the definitions as written"
  },
  {
   "property": "C39",
   "status": "proved",
   "theorems": [
    "ERegex.Props.C39_maximal_munch"
   ],
   "note": "all definitions and inputs, every iterator standing inside the input"
  },
  {
   "property": "C40",
   "status": "partial",
   "theorems": [
    "ERegex.Props.C40_terminates_partial",
    "ERegex.Props.C40_written_partial"
   ],
   "note": "definitions that meet the decidable condition of C18/C19; C40_written: on the definitions as written"
  },
  {
   "property": "C41",
   "status": "proved",
   "theorems": [
    "ERegex.Props.C41_end_detection",
    "ERegex.Props.C41_end_stays",
    "ERegex.Props.C41_null_view"
   ],
   "note": "all definitions, inputs and histories of increments"
  },
  {
   "property": "C42",
   "status": "partial",
   "theorems": [
    "ERegex.Props.C42_caret_of_plain",
    "ERegex.Props.C42_tokens_at_current_partial",
    "ERegex.Props.C42_refuted",
    "ERegex.Props.C42_written_partial"
   ],
   "note": "definitions without top-level |; false otherwise (refuted); C42_written: every well-formed definition without one"
  },
  {
   "property": "C43",
   "status": "proved",
   "theorems": [
    "ERegex.Props.C43_view_comparison",
    "ERegex.Props.C43_null_comparison"
   ],
   "note": "all memories and views"
  },
  {
   "property": "C44",
   "status": "partial",
   "theorems": [
    "ERegex.Props.C44_round_trip_partial",
    "ERegex.Props.C44_written_partial",
    "ERegex.Props.C44_zero_refuted",
    "ERegex.Props.C44_escape_refuted",
    "ERegex.Props.C44_class_refuted",
    "ERegex.Props.C44_sequence_refuted",
    "ERegex.Props.C44_negated_refuted"
   ],
   "note": "patterns whose compiled tree can be read back (decidable; most patterns of README and tests, any nesting of groups, alternatives, quantifiers); C44_written_partial: the condition on the pattern as written (Spec/Printable.lean); refuted for escaped operators, zero bounds, classes and groups printed without brackets"
  },
  {
   "property": "C45",
   "status": "partial",
   "theorems": [
    "ERegex.Props.C45_numbered_partial",
    "ERegex.Props.C45_captures_in_group_language_partial",
    "ERegex.Props.C45_refuted",
    "ERegex.Props.C45_written_partial"
   ],
   "note": "same conditions as C20; false outside them (refuted); C45_written, C45_numbered: the same with syntactic conditions, and the group is the one with that number"
  },
  {
   "property": "C46",
   "status": "partial",
   "theorems": [
    "ERegex.Props.C46_max_size_upper_bound_partial",
    "ERegex.Props.C46_fixed_width_partial",
    "ERegex.Props.C46_refuted",
    "ERegex.Props.C46_refuted_lost_match",
    "ERegex.Props.C46_refuted_overflow",
    "ERegex.Props.C46_exact",
    "ERegex.Props.C46_written_partial",
    "ERegex.Props.C46_reliable",
    "ERegex.Props.C46_width",
    "ERegex.Props.C46_reported_partial"
   ],
   "note": "C46_exact gives the value for every well-formed pattern; C46_written_partial, C46_reported_partial: it is a bound if the longest text (computed from the pattern as written) is not longer; C46_reliable: for anchor-free patterns exactly then; also trees that meet the decidable condition maxOk; false otherwise (refuted)"
  },
  {
   "property": "C47",
   "status": "proved",
   "theorems": [
    "ERegex.Props.C47_parse",
    "ERegex.Props.C47_compile",
    "ERegex.Props.C47_accepted_partial",
    "ERegex.Props.C47_empty_refuted",
    "ERegex.Props.C47_brace_refuted",
    "ERegex.Props.C47_inner_anchor_refuted",
    "ERegex.Props.C47_tree"
   ],
   "note": "parsing and compiling: every well-formed pattern; the end-to-end statement about reported matches needs the conditions of C20 (_partial); C47_tree gives the tree explicitly"
  },
  {
   "property": "C48",
   "status": "partial",
   "theorems": [
    "ERegex.Props.C48_list_of_matches",
    "ERegex.Props.C48_preferred_partial",
    "ERegex.Props.C48_next_partial",
    "ERegex.Props.C48_refuted_lazy",
    "ERegex.Props.C48_refuted_optional"
   ],
   "note": "proved, from the spelling of the pattern to the reported text, for the syntactic class of regular patterns (no groups; decidable condition on the pattern as written); the condition covers \\d+\\.?\\d*; false of others (a+?, aa?a; see also C20, C22, C23, C26, C30)"
  },
  {
   "property": "C49",
   "status": "partial",
   "theorems": [
    "ERegex.Props.C49_captures_inside",
    "ERegex.Props.C49_every_group_captures",
    "ERegex.Props.C49_ways_extend_picks",
    "ERegex.Props.C49_captures_partial",
    "ERegex.Props.C49_next_partial",
    "ERegex.Props.C49_own_start_partial",
    "ERegex.Props.C49_refuted_stale",
    "ERegex.Props.C49_refuted_stale_tag",
    "ERegex.Props.C49_refuted_repeat",
    "ERegex.Props.C49_refuted_skipped",
    "ERegex.Props.C49_refuted_slot",
    "ERegex.Props.C49_refuted_nested",
    "ERegex.Props.C49_refuted_atomic",
    "ERegex.Props.C49_refuted_alternative",
    "ERegex.Props.C49_refuted_renumbered",
    "ERegex.Props.C49_refuted_second_alternative",
    "ERegex.Props.C49_refuted_header",
    "ERegex.Props.C49_nested_own_start_partial",
    "ERegex.Props.C49_nested_partial",
    "ERegex.Props.C49_nested_next_partial",
    "ERegex.Props.C49_refuted_inner_stale",
    "ERegex.Props.C49_captures_are_matches",
    "ERegex.Props.C49_ways_are_matches",
    "ERegex.Props.C49_matches_are_ways"
   ],
   "note": "proved, from the spelling of the pattern to the text of every group, for the patterns with groups that meet a decidable condition on the pattern as written (groups not nested; the alternatives of a group that is not at the end begin with different characters, or take the same steps until they differ, or until one ends and what follows the group differs; a group may be repeated if it must take part in the match; one alternative outside the groups, or several in which nothing follows a capturing group and each restores the position); every result a program can obtain under a weaker condition; refuted for (a)[b](c), ((a)b)(c), x(a|ab)c, ^(ab?)+b, x(a)?b (keeps the capture of a failed attempt) and, as to skipped matches, (\\d\\d)-(\\d\\d); with several alternatives for (a)b|c, (a)|b|(c) and (a)(c)x|(b)y; C49_nested*: groups nested to any depth, quantified in any way, with alternatives at every level, for the patterns in which no choice has to be undone (Alts.committed, Spec/Commit.lean: decided by the next character, and every quantifier is made possessive by the heuristics or has no use for what it could give back; ^\\d+(?:,\\d+)*$, ^(\\w+)=(\\d+|t)$, ^\\s*(\\w+)\\s*=\\s*(\\d+)$ and ^(\\w+)(?:,\\w+)*$ are among them); refuted for ((a|b)c)+ (an inner group keeps the capture of a failed repetition)"
  },
  {
   "property": "C50",
   "status": "partial",
   "theorems": [
    "ERegex.Props.C50_walk_partial",
    "ERegex.Props.C50_find_all_partial",
    "ERegex.Props.C50_groups_partial",
    "ERegex.Props.C50_nested_partial",
    "ERegex.Props.C50_nested_walk_partial"
   ],
   "note": "regular patterns (C48) without $, and patterns with groups that meet the condition of C49 (then with the texts of the groups; nested groups by C50_nested_partial), that must take a character; C50_walk_partial: regular patterns that match the empty text too, where the loop follows the walk of Spec/Walk.lean; C50_nested_walk_partial: the same for nested groups"
  },
  {
   "property": "C51",
   "status": "proved",
   "theorems": [
    "ERegex.Props.C51_literal_text",
    "ERegex.Props.C51_escaped_text"
   ],
   "note": "all non-empty texts of characters without special meaning, or written as escapes (C51_escaped_text); queries shorter than 2^32-1"
  },
  {
   "property": "C52",
   "status": "proved",
   "theorems": [
    "ERegex.Props.C52_words"
   ],
   "note": "all non-empty lists of such texts; queries shorter than 2^32-1"
  },
  {
   "property": "C53",
   "status": "proved",
   "theorems": [
    "ERegex.Props.C53_repetitions",
    "ERegex.Props.C53_maximal_runs"
   ],
   "note": "queries shorter than 2^32-1; \\s, negated classes and lazy quantifiers are outside the property (C22, C23, C26 record what happens)"
  },
  {
   "property": "C54",
   "status": "proved",
   "theorems": [
    "ERegex.Props.C54_delimited",
    "ERegex.Props.C54_delimited_group"
   ],
   "note": "queries shorter than 2^32-1; c must be ASCII and allowed inside a class without escape"
  },
  {
   "property": "C55",
   "status": "partial",
   "theorems": [
    "ERegex.Props.C55_nested_partial",
    "ERegex.Props.C55_whole_query_partial",
    "ERegex.Props.C55_whole_query_groups_partial",
    "ERegex.Props.C55_all_digits",
    "ERegex.Props.C55_refuted_accepts",
    "ERegex.Props.C55_refuted_rejects"
   ],
   "note": "patterns that are regular in the sense of C48 or meet one of the conditions of C49 (nested groups: C55_nested_partial); C55_all_digits is an instance without conditions"
  },
  {
   "property": "C56",
   "status": "proved",
   "theorems": [
    "ERegex.Props.C56_surroundings"
   ],
   "note": ""
  },
  {
   "property": "C57",
   "status": "partial",
   "theorems": [
    "ERegex.Props.C57_tokenizer_partial",
    "ERegex.Props.C57_nested_partial"
   ],
   "note": "definitions whose pattern, anchored with ^, meets the condition of C49, or (C57_nested_partial) the one for nested groups (no top-level |, see the refutation in C42)"
  },
  {
   "property": "C58",
   "status": "proved",
   "theorems": [
    "ERegex.Props.C58_words_and_numbers"
   ],
   "note": ""
  },
  {
   "property": "C59",
   "status": "partial",
   "theorems": [
    "ERegex.Props.C59_reads_the_query_partial",
    "ERegex.Props.C59_written_partial"
   ],
   "note": "patterns that meet the condition of C18 (C19 with a NUL byte behind the query); groups additionally need a pattern without fixed-width greedy optional; C59_written: syntactic conditions"
  },
  {
   "property": "C60",
   "status": "partial",
   "theorems": [
    "ERegex.Props.C60_nested_partial",
    "ERegex.Props.C60_found_iff_contained_partial",
    "ERegex.Props.C60_with_groups_partial",
    "ERegex.Props.C60_regular_partial",
    "ERegex.Props.C60_refuted_accepts",
    "ERegex.Props.C60_refuted_misses"
   ],
   "note": "patterns that meet the condition of C30, C48 or C49 (nested groups: C60_nested_partial); refuted in general by C60_refuted_accepts and C60_refuted_misses"
  },
  {
   "property": "C61",
   "status": "partial",
   "theorems": [
    "ERegex.Props.C61_written_partial"
   ],
   "note": "definitions that meet the conditions of C20 as written (Spec/Tame.lean, Spec/Sure.lean)"
  },
  {
   "property": "C62",
   "status": "proved",
   "theorems": [
    "ERegex.Props.C62_pairs",
    "ERegex.Props.C62_records"
   ],
   "note": "queries shorter than 2^32-1; the classes are not negated and do not list \\s"
  },
  {
   "property": "C63",
   "status": "partial",
   "theorems": [
    "ERegex.Props.C63_outline",
    "ERegex.Props.C63_exact",
    "ERegex.Props.C63_unclosed_group",
    "ERegex.Props.C63_nothing_to_repeat",
    "ERegex.Props.C63_question_group",
    "ERegex.Props.C63_empty_alternative",
    "ERegex.Props.C63_unclosed_class",
    "ERegex.Props.C63_reversed_range",
    "ERegex.Props.C63_complement_escape",
    "ERegex.Props.C63_refuted_closers",
    "ERegex.Props.C63_refuted_quantifiers",
    "ERegex.Props.C63_refuted_bounds",
    "ERegex.Props.C63_refuted_escapes",
    "ERegex.Props.C63_refuted_rejected"
   ],
   "note": "necessary condition for every pattern that has an outline; exact for patterns whose escapes, classes and bounds are in order; false in the other direction of stray closers, repeated quantifiers, meaningless bounds and escapes (all of them compile), and of empty alternatives, lookarounds and complement escapes (rejected)"
  },
  {
   "property": "C64",
   "status": "proved",
   "theorems": [
    "ERegex.Props.C64_structured_bindings_partial",
    "ERegex.Props.C64_get_partial",
    "ERegex.Props.C64_exact",
    "ERegex.Props.C64_get_inside",
    "ERegex.Props.C64_refuted_single_terminal"
   ],
   "note": "C64_exact: every well-formed pattern; the lone characters and anchors, for which nothing compiles, are described exactly; an index that compiles is never outside, for every pattern"
  },
  {
   "property": "C65",
   "status": "proved",
   "theorems": [
    "ERegex.Props.C65_no_more_matches",
    "ERegex.Props.C65_stays_at_end"
   ],
   "note": "all patterns, no condition"
  },
  {
   "property": "C66",
   "status": "proved",
   "theorems": [
    "ERegex.Props.C66_symmetric",
    "ERegex.Props.C66_self"
   ],
   "note": "all patterns, no condition"
  },
  {
   "property": "C67",
   "status": "partial",
   "theorems": [
    "ERegex.Props.C67_nested_partial",
    "ERegex.Props.C67_same_buffer_partial",
    "ERegex.Props.C67_only_the_rest_partial",
    "ERegex.Props.C67_rest_partial",
    "ERegex.Props.C67_refuted_in_front",
    "ERegex.Props.C67_refuted_retry",
    "ERegex.Props.C67_refuted_at_end",
    "ERegex.Props.C67_refuted_caret"
   ],
   "note": "the same buffer: all well-formed patterns without ^; any two queries: those that meet the condition of C18 or C19; next() against a fresh match of the rest: those that meet the condition of C49, if the rest is not empty; false otherwise"
  },
  {
   "property": "C68",
   "status": "partial",
   "theorems": [
    "ERegex.Props.C68_array",
    "ERegex.Props.C68_literal_partial",
    "ERegex.Props.C68_view_partial",
    "ERegex.Props.C68_refuted_buffer",
    "ERegex.Props.C68_refuted_last",
    "ERegex.Props.C68_refuted_view",
    "ERegex.Props.C68_refuted_decimal"
   ],
   "note": "char arrays: every pattern; a literal against a view of the same characters: patterns that meet the syntactic condition of C19 (with a NUL byte behind the view) or C18; refuted for buffers that hold more than the text, for arrays without a closing NUL and for a view that is followed by a newline when the pattern has $"
  },
  {
   "property": "C69",
   "status": "partial",
   "theorems": [
    "ERegex.Props.C69_address",
    "ERegex.Props.C69_date",
    "ERegex.Props.C69_readme",
    "ERegex.Props.C69_mail",
    "ERegex.Props.C69_refuted_uri"
   ],
   "note": "proved for a(a*), for dates, mail addresses and IPv4 addresses, for every query shorter than 2^32-1; refuted for the URI pattern, which finds nothing in a://b/ ([^\\s...] takes two characters)"
  },
  {
   "property": "C70",
   "status": "partial",
   "theorems": [
    "ERegex.Props.C70_suite",
    "ERegex.Props.C70_backtracking",
    "ERegex.Props.C70_escapes",
    "ERegex.Props.C70_refuted"
   ],
   "note": "46 of the 53 patterns: everything a backtracking matcher reports, on every query (C70_suite, C70_backtracking); the two with escapes for several characters: the leftmost match (C70_escapes); the IPv4 pattern: C69; false of the code for the remaining four, [a-d]?z, \\s+, \\d+\\s+123, [0-9]++\\s++123, which overlook matches in other queries than those tested (C70_refuted): nothing true of the list is missing"
  },
  {
   "property": "C71",
   "status": "proved",
   "theorems": [
    "ERegex.Props.C71_one_way",
    "ERegex.Props.C71_format",
    "ERegex.Props.C71_refuted_numbering",
    "ERegex.Props.C71_refuted_unclear"
   ],
   "note": "C71_format: any number of pieces, groups included; C71_one_way: the decomposition is unique; outside the stated formats false of the code (C71_refuted_numbering, C71_refuted_unclear)"
  },
  {
   "property": "C72",
   "status": "proved",
   "theorems": [
    "ERegex.Props.C72_check",
    "ERegex.Props.C72_search",
    "ERegex.Props.C72_refuted_fields",
    "ERegex.Props.C72_refuted_terminated"
   ],
   "note": "C72_check and C72_search: any number of items; for fields that are anything but the separator, and for items with the separator behind each, false of the code (C72_refuted_fields, C72_refuted_terminated)"
  },
  {
   "property": "C73",
   "status": "proved",
   "theorems": [
    "ERegex.Props.C73_search",
    "ERegex.Props.C73_refuted_fixed",
    "ERegex.Props.C73_refuted_bounded"
   ],
   "note": "C73_search: any number of pieces; for formats that begin with a fixed number of characters or with a bounded repetition, false of the code (C73_refuted_fixed, C73_refuted_bounded)"
  },
  {
   "property": "C74",
   "status": "proved",
   "theorems": [
    "ERegex.Props.C74_choice",
    "ERegex.Props.C74_refuted_prefix",
    "ERegex.Props.C74_refuted_behind"
   ],
   "note": "C74_choice: any number of words; where a word is a prefix of a later one, or can be read on into the format, false of the code (C74_refuted_prefix, C74_refuted_behind)"
  },
  {
   "property": "C75",
   "status": "proved",
   "theorems": [
    "ERegex.Props.C75_one_way",
    "ERegex.Props.C75_form",
    "ERegex.Props.C75_refuted_unclear",
    "ERegex.Props.C75_refuted_numbering"
   ],
   "note": "C75_form, C75_one_way: any number of places and of words; where it is not clear where a piece ends, or (?:…) lies between two groups, false of the code (C75_refuted_unclear, C75_refuted_numbering)"
  },
  {
   "property": "C76",
   "status": "proved",
   "theorems": [
    "ERegex.Props.C76_search",
    "ERegex.Props.C76_refuted_captured",
    "ERegex.Props.C76_refuted_shorter"
   ],
   "note": "C76_search: any number of places and of words; for forms that begin with words in a capturing group, and as to the longest text if a word at the end is a prefix of a later one, false of the code (C76_refuted_captured, C76_refuted_shorter)"
  },
  {
   "property": "C77",
   "status": "proved",
   "theorems": [
    "ERegex.Props.C77_check",
    "ERegex.Props.C77_search",
    "ERegex.Props.C77_refuted_ambiguous",
    "ERegex.Props.C77_refuted_repeated"
   ],
   "note": "C77_check and C77_search: any number of items and of characters in the separator; for separators that may begin with a character of an item, and for separators that begin with a repetition, false of the code (C77_refuted_ambiguous, C77_refuted_repeated)"
  },
  {
   "property": "C78",
   "status": "proved",
   "theorems": [
    "ERegex.Props.C78_check",
    "ERegex.Props.C78_search",
    "ERegex.Props.C78_refuted_ambiguous"
   ],
   "note": "C78_check and C78_search: any number of items, of characters in the separator and of padding; for padding that an item may begin with false of the code (C78_refuted_ambiguous), as for padding in front of the separator (C77_refuted_repeated)"
  },
  {
   "property": "C79",
   "status": "proved",
   "theorems": [
    "ERegex.Props.C79_check",
    "ERegex.Props.C79_refuted_empty",
    "ERegex.Props.C79_refuted_search"
   ],
   "note": "C79_check: any bounds on the length and the number of the fields; if both quantifiers can be zero, and for searching, false of the code (C79_refuted_empty, C79_refuted_search)"
  },
  {
   "property": "C80",
   "status": "proved",
   "theorems": [
    "ERegex.Props.C80_check",
    "ERegex.Props.C80_one_text",
    "ERegex.Props.C80_refuted_unclear"
   ],
   "note": "C80_check: any number of records of any number of pieces, C80_one_text: the text is unique; if the end of a record is not clear, false of the code (C80_refuted_unclear)"
  }
 ]
}