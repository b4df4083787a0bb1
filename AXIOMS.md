# Axioms each theorem of MANIFEST.json depends on

Output of `#print axioms`, grouped; regenerate with `tools/gen_axioms.py`.

## Classical.choice, Quot.sound, propext

`C01_tokens_concat`, `C01_tokens_exact`, `C01_escape_kept`, `C02_tokenizes_iff`, `C02_no_brace`, `C02_unclosed`, `C03_bound_value`, `C03_round_trip`, `C03_printed_digits`, `C03_exact_bound`, `C03_min_bound`, `C03_range_bound`, `C04_unclosed_group`, `C05_join`, `C05_split_exact`, `C05_cuts_all`, `C06_balanced_iff`, `C06_accepts`, `C06_wellNested_iff`, `C06_stray_closer_refuted`, `C07_finds_partial`, `C07_hex_two_digits_partial`, `C07_hex_one_digit_partial`, `C07_hex_string_partial`, `C07_letters_refuted`, `C07_letter_witness`, `C07_exact`, `C07_odd_refuted`, `C07_string_exact`, `C07_empty`, `C07_odd_exact`, `C08_finds`, `C08_octal`, `C08_needs_three`, `C08_octal_string`, `C08_eight_refuted`, `C08_exact`, `C08_value`, `C08_string_exact`, `C08_length`, `C09_groups_count`, `C09_written`, `C10_slots_in_array`, `C10_no_write_outside`, `C10_written`, `C11_result_is_nth_group_partial`, `C11_slot_order_partial`, `C11_refuted_class`, `C11_refuted_nested`, `C11_refuted_branch`, `C11_refuted_branch2`, `C11_refuted_noncapture`, `C11_nested_partial`, `C11_written_partial`, `C11_refuted_always_empty`, `C12_terminates`, `C14_same_matches_partial`, `C14_greedy_as_possessive_partial`, `C14_lazy_as_possessive_partial`, `C14_refuted`, `C14_refuted_start`, `C14_refuted_text`, `C14_greedy_only_if_apart_partial`, `C14_lazy_only_if_apart_partial`, `C14_in_group_only_if_apart_partial`, `C14_same_results_partial`, `C14_same_captures_partial`, `C14_refuted_lost_match`, `C14_refuted_repairs`, `C14_refuted_wrong_match`, `C15_complement_mem`, `C15_complement_general`, `C15_range_mem`, `C15_sorted`, `C15_can_admit`, `C15_range_sorted`, `C16_independent_partial`, `C16_refuted_alternatives`, `C16_refuted_nullable`, `C16_refuted_non_ascii`, `C16_exact`, `C16_written_partial`, `C16_reliable`, `C17_min_size_lower_bound`, `C17_min_size_compiled`, `C17_min_size_kept`, `C17_tight`, `C17_written`, `C18_stays_inside_partial`, `C18_refuted_end_anchor`, `C18_refuted_hex_string`, `C18_refuted_negated_space`, `C18_refuted_wide_optional`, `C18_written_partial`, `C19_stays_inside_nul_partial`, `C19_refuted_negated_space`, `C19_refuted_nul_escape`, `C19_written_partial`, `C20_refuted_decimal`, `C20_refuted_spaces`, `C20_refuted_trailing`, `C20_accepted_in_language_partial`, `C20_refuted_optional`, `C20_refuted_alternatives`, `C20_refuted_giving_back`, `C20_refuted_class_lazy`, `C20_refuted_half_round`, `C20_written_partial`, `C22_written`, `C22_greedy_takes_most_partial`, `C22_greedy_alone_partial`, `C22_greedy_in_group_partial`, `C22_optional_partial`, `C22_refuted_space`, `C22_refuted_optional`, `C22_refuted_negated`, `C22_refuted_long`, `C23_written`, `C23_lazy_takes_least_partial`, `C23_refuted`, `C24_written`, `C24_never_gives_back`, `C24_possessive`, `C25_written`, `C25_exact`, `C26_class_partial`, `C26_negated_partial`, `C26_last_space_partial`, `C26_space_first_refuted`, `C26_negated_search_refuted`, `C26_negated_space_refuted`, `C27_digit`, `C27_word`, `C27_any`, `C27_space_partial`, `C27_escaped`, `C27_control`, `C27_plain`, `C27_space_search_refuted`, `C27_complement_refuted`, `C28_caret_anchors`, `C28_refuses_elsewhere`, `C28_refuted_line`, `C28_refuted_empty`, `C28_refuted_alternative`, `C29_dollar_anchors`, `C29_dollar_anchors_nul`, `C29_refuted_zero_width`, `C30_refuted_quoted`, `C30_refuted_separator`, `C30_refuted_sign`, `C30_leftmost_partial`, `C30_next_partial`, `C30_nonempty_partial`, `C30_refuted_repeat`, `C30_refuted_group`, `C30_refuted_optional`, `C30_refuted_negated`, `C30_refuted_end`, `C30_refuted_alternative`, `C30_refuted_no_backtrack`, `C30_refuted_width`, `C30_written_partial`, `C30_nested_partial`, `C31_ordered_disjoint_partial`, `C31_refuted_wide_optional`, `C31_written_partial`, `C32_terminates_partial`, `C32_refuted_hang`, `C32_written_partial`, `C33_ends_iff_partial`, `C33_groups_iff_partial`, `C33_star`, `C33_refuted_decimal`, `C33_iteration_ends_partial`, `C33_refuted_empty_match`, `C33_nested_iff_partial`, `C33_written_partial`, `C35_written_partial`, `C35_failed_is_empty_partial`, `C35_refuted_stale_capture`, `C36_inside_match_partial`, `C36_groups_inside_partial`, `C36_refuted_outside_match`, `C36_refuted_negative_length`, `C36_written_partial`, `C37_words_in_group`, `C37_alternatives_in_order_partial`, `C37_refuted`, `C38_tokens_in_order_partial`, `C38_written_partial`, `C39_maximal_munch`, `C40_terminates_partial`, `C40_written_partial`, `C41_end_detection`, `C41_end_stays`, `C42_caret_of_plain`, `C42_tokens_at_current_partial`, `C42_refuted`, `C42_written_partial`, `C43_view_comparison`, `C43_null_comparison`, `C44_round_trip_partial`, `C44_written_partial`, `C44_zero_refuted`, `C44_escape_refuted`, `C44_class_refuted`, `C44_sequence_refuted`, `C44_negated_refuted`, `C45_numbered_partial`, `C45_captures_in_group_language_partial`, `C45_refuted`, `C45_written_partial`, `C46_fixed_width_partial`, `C46_refuted`, `C46_refuted_lost_match`, `C46_refuted_overflow`, `C46_exact`, `C46_written_partial`, `C46_reliable`, `C46_width`, `C46_reported_partial`, `C47_parse`, `C47_compile`, `C47_accepted_partial`, `C47_empty_refuted`, `C47_brace_refuted`, `C47_inner_anchor_refuted`, `C47_tree`, `C48_list_of_matches`, `C48_preferred_partial`, `C48_next_partial`, `C48_refuted_lazy`, `C48_refuted_optional`, `C49_captures_inside`, `C49_every_group_captures`, `C49_ways_extend_picks`, `C49_captures_partial`, `C49_next_partial`, `C49_own_start_partial`, `C49_refuted_stale`, `C49_refuted_stale_tag`, `C49_refuted_repeat`, `C49_refuted_skipped`, `C49_refuted_slot`, `C49_refuted_nested`, `C49_refuted_atomic`, `C49_refuted_alternative`, `C49_refuted_renumbered`, `C49_refuted_second_alternative`, `C49_refuted_header`, `C49_nested_own_start_partial`, `C49_nested_partial`, `C49_nested_next_partial`, `C49_refuted_inner_stale`, `C49_captures_are_matches`, `C49_ways_are_matches`, `C49_matches_are_ways`, `C50_walk_partial`, `C50_find_all_partial`, `C50_groups_partial`, `C50_nested_partial`, `C50_nested_walk_partial`, `C51_literal_text`, `C51_escaped_text`, `C52_words`, `C53_repetitions`, `C53_maximal_runs`, `C54_delimited`, `C54_delimited_group`, `C55_nested_partial`, `C55_whole_query_partial`, `C55_whole_query_groups_partial`, `C55_all_digits`, `C55_refuted_accepts`, `C55_refuted_rejects`, `C56_surroundings`, `C57_tokenizer_partial`, `C57_nested_partial`, `C58_words_and_numbers`, `C59_reads_the_query_partial`, `C59_written_partial`, `C60_nested_partial`, `C60_found_iff_contained_partial`, `C60_with_groups_partial`, `C60_regular_partial`, `C60_refuted_accepts`, `C60_refuted_misses`, `C61_written_partial`, `C62_pairs`, `C62_records`, `C63_outline`, `C63_exact`, `C63_unclosed_group`, `C63_nothing_to_repeat`, `C63_question_group`, `C63_empty_alternative`, `C63_unclosed_class`, `C63_reversed_range`, `C63_complement_escape`, `C63_refuted_closers`, `C63_refuted_quantifiers`, `C63_refuted_bounds`, `C63_refuted_escapes`, `C63_refuted_rejected`, `C64_structured_bindings_partial`, `C64_get_partial`, `C64_exact`, `C64_get_inside`, `C64_refuted_single_terminal`, `C65_no_more_matches`, `C65_stays_at_end`, `C66_symmetric`, `C66_self`, `C67_nested_partial`, `C67_same_buffer_partial`, `C67_only_the_rest_partial`, `C67_rest_partial`, `C67_refuted_in_front`, `C67_refuted_retry`, `C67_refuted_at_end`, `C67_refuted_caret`, `C68_array`, `C68_literal_partial`, `C68_view_partial`, `C68_refuted_buffer`, `C68_refuted_last`, `C68_refuted_view`, `C68_refuted_decimal`, `C69_address`, `C69_date`, `C69_readme`, `C69_mail`, `C69_refuted_uri`, `C70_suite`, `C70_backtracking`, `C70_escapes`, `C70_refuted`, `C71_one_way`, `C71_format`, `C71_refuted_numbering`, `C71_refuted_unclear`, `C72_check`, `C72_search`, `C72_refuted_fields`, `C72_refuted_terminated`, `C73_search`, `C73_refuted_fixed`, `C73_refuted_bounded`, `C74_choice`, `C74_refuted_prefix`, `C74_refuted_behind`, `C75_one_way`, `C75_form`, `C75_refuted_unclear`, `C75_refuted_numbering`, `C76_search`, `C76_refuted_captured`, `C76_refuted_shorter`, `C77_check`, `C77_search`, `C77_refuted_ambiguous`, `C77_refuted_repeated`, `C78_check`, `C78_search`, `C78_refuted_ambiguous`, `C79_check`, `C79_refuted_empty`, `C79_refuted_search`, `C80_check`, `C80_refuted_unclear`

## Quot.sound, propext

`C04_extract_matching`, `C04_extract_only`, `C09_result_slots`, `C10_frame`, `C12_fuel_irrelevant`, `C15_merge_mem`, `C15_intersect_mem`, `C15_refuted_non_ascii`, `C21_attempt_keeps_start`, `C21_attempt_keeps_other_slots`, `C28_anchored_tree`, `C34_range_for`, `C34_independent`, `C41_null_view`, `C46_max_size_upper_bound_partial`, `C80_one_text`

## no axioms

`C03_zero_refuted`

## propext

`C03_bound_exists`, `C09_groups_optimized`, `C12_fixpoint`, `C12_idempotent`, `C13_same_language`, `C13_same_slots`, `C34_loop_condition`
