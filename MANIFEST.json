{
 "claims": [
  {
   "property": "C01",
   "status": "proved",
   "theorems": [
    "Silverfox.C01_pool_reports_running_sum",
    "Silverfox.C01_exact_net_sum",
    "Silverfox.C01_exact_order_irrelevant",
    "Silverfox.C01_float_order_matters"
   ],
   "note": "Any magnitude type; exact net sum over Rat. C01_float_order_matters: with doubles the order of operations matters."
  },
  {
   "property": "C02",
   "status": "proved",
   "theorems": [
    "Silverfox.C02_one_line_per_currency",
    "Silverfox.C02_no_duplicate_line",
    "Silverfox.C02_line_iff_touched"
   ],
   "note": ""
  },
  {
   "property": "C03",
   "status": "proved",
   "theorems": [
    "Silverfox.C03_is_zero_iff_lines",
    "Silverfox.C03_is_zero_iff_reports_zero",
    "Silverfox.C03_exact_is_zero_iff_net_zero"
   ],
   "note": ""
  },
  {
   "property": "C04",
   "status": "proved",
   "theorems": [
    "Silverfox.C04_different_currencies_abort",
    "Silverfox.C04_equal_currencies_work",
    "Silverfox.C04_equal_amounts_same_currency"
   ],
   "note": ""
  },
  {
   "property": "C05",
   "status": "proved",
   "theorems": [
    "Silverfox.C05_symbol_position",
    "Silverfox.C05_numbers"
   ],
   "note": ""
  },
  {
   "property": "C06",
   "status": "proved",
   "theorems": [
    "Silverfox.C06_accepted",
    "Silverfox.C06_accepted_exact",
    "Silverfox.C06_rejected"
   ],
   "note": ""
  },
  {
   "property": "C07",
   "status": "partial",
   "theorems": [
    "Silverfox.C07_separator_partial",
    "Silverfox.C07_separators_partial",
    "Silverfox.C07_stray_separator"
   ],
   "note": "Holds where the separator is not put between the two dashes of a `--`; C07_stray_separator is the counterexample (`-,-5`)."
  },
  {
   "property": "C08",
   "status": "proved",
   "theorems": [
    "Silverfox.C08_round_trip",
    "Silverfox.C08_round_trip_exact",
    "Silverfox.C08_exact_decimals",
    "Silverfox.C08_symbol_with_space",
    "Silverfox.C08_overflow",
    "Silverfox.C08_other_decimal_symbol"
   ],
   "note": "C08_symbol_with_space, C08_overflow and C08_other_decimal_symbol show that the conditions are needed."
  },
  {
   "property": "C09",
   "status": "proved",
   "theorems": [
    "Silverfox.C09_clause_order",
    "Silverfox.C09_two_clauses",
    "Silverfox.C09_reading"
   ],
   "note": ""
  },
  {
   "property": "C10",
   "status": "partial",
   "theorems": [
    "Silverfox.C10_undeclared_is_rejected_partial",
    "Silverfox.C10_declared_before_partial",
    "Silverfox.C10_loaded_partial",
    "Silverfox.C10_envelope_postings_unchecked"
   ],
   "note": "Ordinary postings only. C10_envelope_postings_unchecked refutes it for envelope postings."
  },
  {
   "property": "C11",
   "status": "proved",
   "theorems": [
    "Silverfox.C11_round_trip",
    "Silverfox.C11_printable_f64",
    "Silverfox.C11_printable_exact",
    "Silverfox.C11_operator_symbol"
   ],
   "note": ""
  },
  {
   "property": "C12",
   "status": "partial",
   "theorems": [
    "Silverfox.C12_native_value_partial",
    "Silverfox.C12_unit_or_total",
    "Silverfox.C12_envelope_posting_has_none",
    "Silverfox.C12_total_cost_loses_sign"
   ],
   "note": "Value rule proved with the sign as the code computes it; C12_total_cost_loses_sign refutes the claim for negative quantities with a total cost."
  },
  {
   "property": "C13",
   "status": "partial",
   "theorems": [
    "Silverfox.C13_blank_balances_partial",
    "Silverfox.C13_ordinary_postings_balance",
    "Silverfox.C13_envelope_postings_disturb",
    "Silverfox.C13_off_by_the_envelopes"
   ],
   "note": "Exact rule in C13_off_by_the_envelopes: the ordinary postings sum to minus what the envelope postings of the entry move, so the claim holds exactly where these cancel; C13_envelope_postings_disturb is a witness."
  },
  {
   "property": "C14",
   "status": "proved",
   "theorems": [
    "Silverfox.C14_blank_balances_native",
    "Silverfox.C14_unknown_value_refused"
   ],
   "note": ""
  },
  {
   "property": "C15",
   "status": "proved",
   "theorems": [
    "Silverfox.C15_validate_iff",
    "Silverfox.C15_accepted_entry"
   ],
   "note": ""
  },
  {
   "property": "C16",
   "status": "partial",
   "theorems": [
    "Silverfox.C16_unbalanced_entry_accepted",
    "Silverfox.C16_blank_entry_balances_partial"
   ],
   "note": "Refuted by C16_unbalanced_entry_accepted: there is no balance check. Proved for entries with a blank posting."
  },
  {
   "property": "C17",
   "status": "partial",
   "theorems": [
    "Silverfox.C17_blank_amount_crashes_iff",
    "Silverfox.C17_blank_amount_no_crash_partial",
    "Silverfox.C17_only_blank_posting_crashes"
   ],
   "note": "C17_blank_amount_crashes_iff says exactly when it aborts; C17_only_blank_posting_crashes is a witness."
  },
  {
   "property": "C18",
   "status": "partial",
   "theorems": [
    "Silverfox.C18_fields",
    "Silverfox.C18_header",
    "Silverfox.C18_status_refused",
    "Silverfox.C18_date_refused",
    "Silverfox.C18_payee_open",
    "Silverfox.C18_only_date_aborts",
    "Silverfox.C18_crossed_aborts",
    "Silverfox.C18_aborts_example"
   ],
   "note": "All fields and refusals proved; the claim is refuted for headers of only a date and for `]` before `[`, which abort (C18_only_date_aborts, C18_crossed_aborts)."
  },
  {
   "property": "C19",
   "status": "proved",
   "theorems": [
    "Silverfox.C19_round_trip",
    "Silverfox.C19_conditions"
   ],
   "note": ""
  },
  {
   "property": "C20",
   "status": "proved",
   "theorems": [
    "Silverfox.C20_status_parse_iff",
    "Silverfox.C20_status_refused",
    "Silverfox.C20_status_chars"
   ],
   "note": ""
  },
  {
   "property": "C21",
   "status": "proved",
   "theorems": [
    "Silverfox.C21_cut_at_marker",
    "Silverfox.C21_cut_at_first_marker",
    "Silverfox.C21_idempotent",
    "Silverfox.C21_semicolon_comment_ignored",
    "Silverfox.C21_slash_comment_ignored"
   ],
   "note": ""
  },
  {
   "property": "C22",
   "status": "proved",
   "theorems": [
    "Silverfox.C22_weekly_next",
    "Silverfox.C22_weekly_last"
   ],
   "note": ""
  },
  {
   "property": "C23",
   "status": "proved",
   "theorems": [
    "Silverfox.C23_monthly_next"
   ],
   "note": ""
  },
  {
   "property": "C24",
   "status": "partial",
   "theorems": [
    "Silverfox.C24_biweekly_next_partial",
    "Silverfox.C24_biweekly_skips_first"
   ],
   "note": "Refuted in the fortnight before the starting date by C24_biweekly_skips_first; proved otherwise."
  },
  {
   "property": "C25",
   "status": "partial",
   "theorems": [
    "Silverfox.C25_bimonthly_next_partial",
    "Silverfox.C25_bimonthly_returns_today"
   ],
   "note": "Refuted by C25_bimonthly_returns_today; the partial theorem gives what the code computes."
  },
  {
   "property": "C26",
   "status": "partial",
   "theorems": [
    "Silverfox.C26_annual_next_partial",
    "Silverfox.C26_annual_stuck",
    "Silverfox.C26_annual_exact",
    "Silverfox.C26_leap_day"
   ],
   "note": "Exact rule in C26_annual_exact: right exactly until the first anniversary; C26_leap_day for a start on 29 February. Refuted by C26_annual_stuck."
  },
  {
   "property": "C27",
   "status": "partial",
   "theorems": [
    "Silverfox.C27_one_off_partial",
    "Silverfox.C27_starting_clause_keeps_due",
    "Silverfox.C27_exact"
   ],
   "note": "Exact rule in C27_exact: right exactly without a `starting` clause. Refuted by C27_starting_clause_keeps_due."
  },
  {
   "property": "C28",
   "status": "partial",
   "theorems": [
    "Silverfox.C28_next_due_never_crashes",
    "Silverfox.C28_last_due_never_crashes_partial",
    "Silverfox.C28_unsafe_crashes"
   ],
   "note": "Next due date: proved for all. Last due date: C28_unsafe_crashes gives the schedules that abort."
  },
  {
   "property": "C29",
   "status": "partial",
   "theorems": [
    "Silverfox.C29_last_next_bracket_today_partial",
    "Silverfox.C29_annual_two_years_apart",
    "Silverfox.C29_annual_exact"
   ],
   "note": "Weekly, biweekly, monthly, bimonthly; exact rule for annual schedules in C29_annual_exact (refuted for these by C29_annual_two_years_apart)."
  },
  {
   "property": "C30",
   "status": "partial",
   "theorems": [
    "Silverfox.C30_named_day_is_ignored",
    "Silverfox.C30_every_other_weekday_partial",
    "Silverfox.C30_every_other_monday_on_saturday"
   ],
   "note": "Refuted by C30_every_other_monday_on_saturday; holds if the starting date falls on the named day."
  },
  {
   "property": "C31",
   "status": "proved",
   "theorems": [
    "Silverfox.C31_others_untouched",
    "Silverfox.C31_named_changes_by_postings",
    "Silverfox.C31_envelopes_independent"
   ],
   "note": ""
  },
  {
   "property": "C32",
   "status": "proved",
   "theorems": [
    "Silverfox.C32_no_money_lost",
    "Silverfox.C32_new_envelope"
   ],
   "note": ""
  },
  {
   "property": "C33",
   "status": "proved",
   "theorems": [
    "Silverfox.C33_withdrawal_from_now",
    "Silverfox.C33_deposit_by_date"
   ],
   "note": ""
  },
  {
   "property": "C34",
   "status": "proved",
   "theorems": [
    "Silverfox.C34_moves_only_if_both",
    "Silverfox.C34_else_untouched"
   ],
   "note": ""
  },
  {
   "property": "C35",
   "status": "partial",
   "theorems": [
    "Silverfox.C35_spending_partial",
    "Silverfox.C35_refund_takes_money",
    "Silverfox.C35_exact"
   ],
   "note": "Exact rule in C35_exact, for purchases and refunds; the claim is refuted for refunds by C35_refund_takes_money."
  },
  {
   "property": "C36",
   "status": "partial",
   "theorems": [
    "Silverfox.C36_manual_no_crash_partial",
    "Silverfox.C36_auto_no_crash_partial",
    "Silverfox.C36_foreign_envelope_posting_crashes",
    "Silverfox.C36_priced_posting_crashes",
    "Silverfox.C36_manual_crashes_iff",
    "Silverfox.C36_auto_crashes_iff"
   ],
   "note": "Refuted by C36_foreign_envelope_posting_crashes and C36_priced_posting_crashes. C36_manual_crashes_iff and C36_auto_crashes_iff say exactly when processing an entry aborts."
  },
  {
   "property": "C37",
   "status": "proved",
   "theorems": [
    "Silverfox.C37_fill_never_negative",
    "Silverfox.C37_exact_fill_never_negative",
    "Silverfox.C37_skipped_gets_nothing",
    "Silverfox.C37_fill_currency"
   ],
   "note": ""
  },
  {
   "property": "C38",
   "status": "partial",
   "theorems": [
    "Silverfox.C38_no_overfill_partial",
    "Silverfox.C38_overfill_is_debt",
    "Silverfox.C38_float_no_overfill_partial",
    "Silverfox.C38_overdrawn_overfills"
   ],
   "note": "Envelopes that are not overdrawn; refuted otherwise by C38_overdrawn_overfills."
  },
  {
   "property": "C39",
   "status": "partial",
   "theorems": [
    "Silverfox.C39_fills_within_available_partial",
    "Silverfox.C39_available_stays_partial",
    "Silverfox.C39_float_single_fill_partial",
    "Silverfox.C39_overdrawn_overspends",
    "Silverfox.C39_float_fills_partial"
   ],
   "note": "Envelopes that are not overdrawn. Exact arithmetic: the fills of a currency are together at most what is available. Doubles (C39_float_fills_partial): each fill is finite and not negative, and together they exceed what is available by at most the factor 1 + n/2^52 for n envelopes. Refuted otherwise by C39_overdrawn_overspends."
  },
  {
   "property": "C40",
   "status": "proved",
   "theorems": [
    "Silverfox.C40_equal_instalments",
    "Silverfox.C40_just_in_time"
   ],
   "note": ""
  },
  {
   "property": "C41",
   "status": "proved",
   "theorems": [
    "Silverfox.C41_aggressive_is_greatest",
    "Silverfox.C41_reachable"
   ],
   "note": ""
  },
  {
   "property": "C42",
   "status": "proved",
   "theorems": [
    "Silverfox.C42_ledger_second_fill",
    "Silverfox.C42_loaded_second_fill",
    "Silverfox.C42_second_fill_moves_nothing",
    "Silverfox.C42_float_second_fill_moves"
   ],
   "note": "Exact arithmetic; C42_float_second_fill_moves shows that doubles need the exception made in the statement."
  },
  {
   "property": "C43",
   "status": "proved",
   "theorems": [
    "Silverfox.C43_filling_never_crashes",
    "Silverfox.C43_reachable_never_crashes"
   ],
   "note": ""
  },
  {
   "property": "C44",
   "status": "proved",
   "theorems": [
    "Silverfox.C44_available",
    "Silverfox.C44_available_holds"
   ],
   "note": ""
  },
  {
   "property": "C45",
   "status": "proved",
   "theorems": [
    "Silverfox.C45_real_is_ordinary_postings",
    "Silverfox.C45_exact_sum",
    "Silverfox.C45_envelope_postings_no_effect",
    "Silverfox.C45_declared_account"
   ],
   "note": ""
  },
  {
   "property": "C46",
   "status": "partial",
   "theorems": [
    "Silverfox.C46_unique_names_partial",
    "Silverfox.C46_refused_iff",
    "Silverfox.C46_expense_and_goal_share_a_name"
   ],
   "note": "Within expenses and within goals; refuted across the two by C46_expense_and_goal_share_a_name."
  },
  {
   "property": "C47",
   "status": "proved",
   "theorems": [
    "Silverfox.C47_date_order",
    "Silverfox.C47_loaded",
    "Silverfox.C47_order_is_determined"
   ],
   "note": ""
  },
  {
   "property": "C48",
   "status": "proved",
   "theorems": [
    "Silverfox.C48_sessions",
    "Silverfox.C48_blank_lines"
   ],
   "note": ""
  },
  {
   "property": "C49",
   "status": "partial",
   "theorems": [
    "Silverfox.C49_sessions_partial",
    "Silverfox.C49_comments_partial",
    "Silverfox.C49_envelope_header_comment"
   ],
   "note": "Refuted for some envelope headers by C49_envelope_header_comment; proved for all other lines."
  },
  {
   "property": "C50",
   "status": "partial",
   "theorems": [
    "Silverfox.C50_comment_line_aborts",
    "Silverfox.C50_comment_line_aborts_loading"
   ],
   "note": "Refuted: C50_comment_line_aborts (for every such envelope text) and C50_comment_line_aborts_loading."
  },
  {
   "property": "C51",
   "status": "partial",
   "theorems": [
    "Silverfox.C51_exact_rule",
    "Silverfox.C51_sum_of_postings_partial",
    "Silverfox.C51_exact_sum_partial",
    "Silverfox.C51_envelope_postings_are_counted",
    "Silverfox.C51_blank_first_posting_counts_zero",
    "Silverfox.C51_report_never_fails"
   ],
   "note": "C51_exact_rule says what the report shows; the claim is refuted by the two witnesses and proved where neither case arises."
  },
  {
   "property": "C52",
   "status": "partial",
   "theorems": [
    "Silverfox.C52_report_is_real_partial",
    "Silverfox.C52_same_lines_partial",
    "Silverfox.C52_report_and_real_differ"
   ],
   "note": "Refuted by C52_report_and_real_differ; proved for accounts declared once, without envelope postings or a first blank posting."
  },
  {
   "property": "C53",
   "status": "proved",
   "theorems": [
    "Silverfox.C53_loading",
    "Silverfox.C53_balance_report",
    "Silverfox.C53_envelope_report",
    "Silverfox.C53_report_sorted"
   ],
   "note": ""
  },
  {
   "property": "C54",
   "status": "partial",
   "theorems": [
    "Silverfox.C54_anywhere_partial",
    "Silverfox.C54_absolute_paths_partial",
    "Silverfox.C54_include_is_paste_partial",
    "Silverfox.C54_relative_include"
   ],
   "note": "Journals whose include names mean the same from every directory of the journal (`C54_anywhere_partial`), in particular files all in one directory (`C54_include_is_paste_partial`) and absolute paths in any directories (`C54_absolute_paths_partial`). Refuted for relative names in several directories by `C54_relative_include`."
  },
  {
   "property": "C55",
   "status": "partial",
   "theorems": [
    "Silverfox.C55_redeclaring_resets",
    "Silverfox.C55_history_is_lost"
   ],
   "note": "Refuted: C55_redeclaring_resets for every ledger, C55_history_is_lost as witness."
  },
  {
   "property": "C56",
   "status": "partial",
   "theorems": [
    "Silverfox.C56_entry_uses_last_format",
    "Silverfox.C56_account_uses_last_format",
    "Silverfox.C56_date_format_line",
    "Silverfox.C56_currency_not_used_in_loading",
    "Silverfox.C56_currency_line_has_no_effect",
    "Silverfox.C56_currency_not_shown",
    "Silverfox.C56_currency_is_ignored"
   ],
   "note": "date_format part proved in full. The currency part is refuted: C56_currency_line_has_no_effect for every journal."
  },
  {
   "property": "C57",
   "status": "partial",
   "theorems": [
    "Silverfox.C57_assertions_do_not_matter",
    "Silverfox.C57_accepted_regardless",
    "Silverfox.C57_journal_regardless",
    "Silverfox.C57_loaded_regardless",
    "Silverfox.C57_any_assertion_is_read",
    "Silverfox.C57_wrong_assertion_is_loaded"
   ],
   "note": "Refuted: C57_journal_regardless for every journal, C57_wrong_assertion_is_loaded as witness."
  },
  {
   "property": "C58",
   "status": "proved",
   "theorems": [
    "Silverfox.C58_append_only",
    "Silverfox.C58_no_move_changes_nothing",
    "Silverfox.C58_no_move_command_line"
   ],
   "note": ""
  },
  {
   "property": "C59",
   "status": "proved",
   "theorems": [
    "Silverfox.C59_changed_only_if_loaded",
    "Silverfox.C59_loading_error"
   ],
   "note": ""
  },
  {
   "property": "C60",
   "status": "partial",
   "theorems": [
    "Silverfox.C60_absolute_path_partial",
    "Silverfox.C60_same_directory_partial",
    "Silverfox.C60_relative_path_goes_elsewhere",
    "Silverfox.C60_wrong_file_extended",
    "Silverfox.C60_one_directory_partial"
   ],
   "note": "Absolute paths and journals in the working directory; refuted otherwise by C60_relative_path_goes_elsewhere."
  },
  {
   "property": "C61",
   "status": "partial",
   "theorems": [
    "Silverfox.C61_reload_partial",
    "Silverfox.C61_reload_f64_partial",
    "Silverfox.C61_conditions"
   ],
   "note": "Conditions on the date format, names and amounts that make the written text readable (C61_conditions), and one directory."
  },
  {
   "property": "C62",
   "status": "proved",
   "theorems": [
    "Silverfox.C62_written_as_zero",
    "Silverfox.C62_fill_entry"
   ],
   "note": "Amounts as computed; as written to 8 decimals a movement may be 0 (`C62_written_as_zero`)."
  },
  {
   "property": "C63",
   "status": "proved",
   "theorems": [
    "Silverfox.C63_first_block",
    "Silverfox.C63_first_block_read"
   ],
   "note": ""
  },
  {
   "property": "C64",
   "status": "partial",
   "theorems": [
    "Silverfox.C64_across_fields",
    "Silverfox.C64_patterns_partial"
   ],
   "note": "C64_across_fields refutes it; the partial theorem says what is matched and that matches within a field suffice."
  },
  {
   "property": "C65",
   "status": "proved",
   "theorems": [
    "Silverfox.C65_last_value",
    "Silverfox.C65_read",
    "Silverfox.C65_layout"
   ],
   "note": ""
  },
  {
   "property": "C66",
   "status": "proved",
   "theorems": [
    "Silverfox.C66_blocks",
    "Silverfox.C66_root",
    "Silverfox.C66_later",
    "Silverfox.C66_include"
   ],
   "note": ""
  },
  {
   "property": "C67",
   "status": "partial",
   "theorems": [
    "Silverfox.C67_variables_partial",
    "Silverfox.C67_value_with_percent",
    "Silverfox.C67_value_like_name",
    "Silverfox.C67_empty_name"
   ],
   "note": "Proved where no value can be mixed up with a variable (NoMixUp); three witnesses show what happens otherwise."
  },
  {
   "property": "C68",
   "status": "proved",
   "theorems": [
    "Silverfox.C68_postings",
    "Silverfox.C68_order_varies"
   ],
   "note": "C68_order_varies shows that the order of postings does depend on the hash order."
  },
  {
   "property": "C69",
   "status": "proved",
   "theorems": [
    "Silverfox.C69_completed",
    "Silverfox.C69_balances",
    "Silverfox.C69_otherwise"
   ],
   "note": ""
  },
  {
   "property": "C70",
   "status": "partial",
   "theorems": [
    "Silverfox.C70_loads_partial",
    "Silverfox.C70_undeclared_account",
    "Silverfox.C70_description"
   ],
   "note": "Proved for printable entries whose accounts are declared; refuted by C70_undeclared_account and C70_description."
  },
  {
   "property": "C71",
   "status": "partial",
   "theorems": [
    "Silverfox.C71_failure_partial",
    "Silverfox.C71_unreadable",
    "Silverfox.C71_not_atomic"
   ],
   "note": "Proved: an unreadable rules or CSV file writes nothing, and a failure leaves the entries of the earlier records; refuted by C71_not_atomic."
  },
  {
   "property": "C72",
   "status": "proved",
   "theorems": [
    "Silverfox.C72_records",
    "Silverfox.C72_negative_skip"
   ],
   "note": "C72_negative_skip: a negative `skip` skips everything."
  },
  {
   "property": "C73",
   "status": "partial",
   "theorems": [
    "Silverfox.C73_listed",
    "Silverfox.C73_date_order",
    "Silverfox.C73_shown",
    "Silverfox.C73_real_changes_partial",
    "Silverfox.C73_envelope_entry"
   ],
   "note": "Proved with envelope postings counted as changes (C73_listed) and without envelope postings; refuted for these by C73_envelope_entry."
  },
  {
   "property": "C74",
   "status": "proved",
   "theorems": [
    "Silverfox.C74_running_total",
    "Silverfox.C74_exact"
   ],
   "note": ""
  },
  {
   "property": "C75",
   "status": "proved",
   "theorems": [
    "Silverfox.C75_command_line_iff",
    "Silverfox.C75_flag_order_irrelevant",
    "Silverfox.C75_refused_executes_nothing"
   ],
   "note": ""
  },
  {
   "property": "C76",
   "status": "proved",
   "theorems": [
    "Silverfox.C76_share_of_nothing",
    "Silverfox.C76_bar_fits",
    "Silverfox.C76_bar_is_proportional"
   ],
   "note": ""
  },
  {
   "property": "C77",
   "status": "proved",
   "theorems": [
    "Silverfox.C77_layout"
   ],
   "note": ""
  },
  {
   "property": "C78",
   "status": "proved",
   "theorems": [
    "Silverfox.C78_flow",
    "Silverfox.C78_float",
    "Silverfox.C78_exact"
   ],
   "note": ""
  },
  {
   "property": "C79",
   "status": "proved",
   "theorems": [
    "Silverfox.C79_report",
    "Silverfox.C79_report_printed",
    "Silverfox.C79_no_journal"
   ],
   "note": ""
  },
  {
   "property": "C80",
   "status": "partial",
   "theorems": [
    "Silverfox.C80_errors_exit_zero",
    "Silverfox.C80_missing_file_exits_zero",
    "Silverfox.C80_exit_status_partial"
   ],
   "note": "Refuted by C80_errors_exit_zero and C80_missing_file_exits_zero; the partial theorem says what the status does tell."
  },
  {
   "property": "C81",
   "status": "partial",
   "theorems": [
    "Silverfox.C81_failing_commands_move_money",
    "Silverfox.C81_summary_moves_money",
    "Silverfox.C81_no_move_partial"
   ],
   "note": "Refuted by C81_failing_commands_move_money (for every journal) and C81_summary_moves_money; holds with --no-move."
  },
  {
   "property": "C82",
   "status": "proved",
   "theorems": [
    "Silverfox.C82_fill_order",
    "Silverfox.C82_loaded_fill_order"
   ],
   "note": ""
  },
  {
   "property": "C83",
   "status": "partial",
   "theorems": [
    "Silverfox.C83_depth_only_aborts",
    "Silverfox.C83_cycle_aborts",
    "Silverfox.C83_rules_depth_only_aborts",
    "Silverfox.C83_rules_cycle_aborts",
    "Silverfox.C83_two_files_abort",
    "Silverfox.C83_two_rules_files_abort"
   ],
   "note": "Refuted for every cycle: C83_cycle_aborts. Proved: the room on the stack never changes what is loaded (C83_depth_only_aborts). The same for rules files."
  },
  {
   "property": "C84",
   "status": "partial",
   "theorems": [
    "Silverfox.C84_filling_conserves_partial",
    "Silverfox.C84_available_not_negative_partial",
    "Silverfox.C84_loaded_partial",
    "Silverfox.C84_shared_name_overspends"
   ],
   "note": "Over Rat, for accounts no two envelopes of which share a name; refuted otherwise by C84_shared_name_overspends."
  },
  {
   "property": "C85",
   "status": "proved",
   "theorems": [
    "Silverfox.C85_reports_are_printed",
    "Silverfox.C85_bad_format_aborts"
   ],
   "note": "For binary64; C85_bad_format_aborts shows that the format is needed."
  },
  {
   "property": "C86",
   "status": "proved",
   "theorems": [
    "Silverfox.C86_envelope_lines",
    "Silverfox.C86_account_lines",
    "Silverfox.C86_report_lists_everything"
   ],
   "note": "Over Rat. What is available may contain a currency twice only as a pool does (C01)."
  },
  {
   "property": "C87",
   "status": "partial",
   "theorems": [
    "Silverfox.C87_what_aborts_partial",
    "Silverfox.C87_plain_journal_partial",
    "Silverfox.C87_journals_that_abort"
   ],
   "note": "Refuted by C87_journals_that_abort. Proved: only the listed items abort (C87_what_aborts_partial), so journals without envelopes and single postings never do (C87_plain_journal_partial). Missing: nothing of what holds; the full claim is false of the code."
  },
  {
   "property": "C88",
   "status": "proved",
   "theorems": [
    "Silverfox.C88_loading_reads_the_items",
    "Silverfox.C88_items_of_a_text"
   ],
   "note": "The depth of includes is not bounded; a cycle has no derivation."
  },
  {
   "property": "C89",
   "status": "proved",
   "theorems": [
    "Silverfox.C89_typed_amounts_are_kept",
    "Silverfox.C89_written_once",
    "Silverfox.C89_rounding_error",
    "Silverfox.C89_large_amounts_drift"
   ],
   "note": "For binary64. C89_large_amounts_drift shows that the bound is needed."
  },
  {
   "property": "C90",
   "status": "proved",
   "theorems": [
    "Silverfox.C90_pool_error",
    "Silverfox.C90_reported_balance",
    "Silverfox.C90_whole_numbers_are_exact",
    "Silverfox.C90_shown_to_the_last_digit",
    "Silverfox.C90_reported_to_the_last_digit",
    "Silverfox.C90_nothing_left"
   ],
   "note": "For binary64. For the report with the hypotheses of C51 (no envelope posting, first posting has an amount). C90_nothing_left: a sum of zero may be shown as -0."
  },
  {
   "property": "C91",
   "status": "proved",
   "theorems": [
    "Silverfox.C91_schedules",
    "Silverfox.C91_declaration_means_what_it_says",
    "Silverfox.C91_headers_misread",
    "Silverfox.C91_schedules_not_checked"
   ],
   "note": "Layout: single spaces around the words of the due and starting clauses (two are refused, C91_headers_misread), no comments inside the declaration; a name is not `starting`, and not `by` in a header with `due`."
  },
  {
   "property": "C92",
   "status": "partial",
   "theorems": [
    "Silverfox.C92_layout",
    "Silverfox.C92_first_lines",
    "Silverfox.C92_columns_line_up_partial",
    "Silverfox.C92_accents_shift"
   ],
   "note": "C92_columns_line_up_partial: for ASCII texts; with others continuation lines are shifted (C92_accents_shift). C92_layout and C92_first_lines hold for all texts."
  },
  {
   "property": "C93",
   "status": "partial",
   "theorems": [
    "Silverfox.C93_same_on_every_day_partial",
    "Silverfox.C93_same_money_partial",
    "Silverfox.C93_not_on_every_day"
   ],
   "note": "For schedules whose last due date exists on every day (SafeFiles); refuted otherwise by C93_not_on_every_day. C93_same_on_every_day_partial for any arithmetic, C93_same_money_partial over Rat."
  },
  {
   "property": "C94",
   "status": "proved",
   "theorems": [
    "Silverfox.C94_last_due_moves_forward",
    "Silverfox.C94_next_due_moves_forward",
    "Silverfox.C94_money_is_only_released"
   ],
   "note": "Money over Rat. C94_money_is_only_released assumes SafeFiles as C93 does."
  },
  {
   "property": "C95",
   "status": "proved",
   "theorems": [
    "Silverfox.C95_record",
    "Silverfox.C95_column_named_twice"
   ],
   "note": "Values with percent signs and mixed-up names are refuted under C67; they are excluded here by `GoodColumns` and `NoMixUp` inside `Says`."
  },
  {
   "property": "C96",
   "status": "partial",
   "theorems": [
    "Silverfox.C96_goes_on_loading_partial",
    "Silverfox.C96_goes_on_loading_f64_partial",
    "Silverfox.C96_filling_breaks_the_journal"
   ],
   "note": "Exact arithmetic, and doubles with finite fill amounts. Conditions: absolute path (C60), safe schedules (C93), days that can be written in the date format, plain currency symbols, no expense and goal of one name in different currencies (refuted: `C96_filling_breaks_the_journal`). Imports are in C103."
  },
  {
   "property": "C97",
   "status": "partial",
   "theorems": [
    "Silverfox.C97_exact_rule",
    "Silverfox.C97_books_balance_partial",
    "Silverfox.C97_blank_entries_balance",
    "Silverfox.C97_first_posting_blank"
   ],
   "note": "Exact arithmetic. Holds when no account begins with a blank posting (such a posting is left out of the report, C97_first_posting_blank); C97_exact_rule says by how much the report is off in every other journal."
  },
  {
   "property": "C98",
   "status": "partial",
   "theorems": [
    "Silverfox.C98_exact_rule",
    "Silverfox.C98_register_ends_with_balance_partial",
    "Silverfox.C98_first_posting_blank"
   ],
   "note": "Exact arithmetic. Holds when no account in focus begins with a blank posting; C98_exact_rule says by how much they differ otherwise, C98_first_posting_blank is a witness."
  },
  {
   "property": "C99",
   "status": "partial",
   "theorems": [
    "Silverfox.C99_order_of_entries",
    "Silverfox.C99_reports_partial",
    "Silverfox.C99_envelope_lines",
    "Silverfox.C99_order_matters_for_filling",
    "Silverfox.C99_order_within_a_day"
   ],
   "note": "Exact arithmetic. Real values, envelopes and entries for all permutations; reports when no two entries are of one day. Refuted for the balance report within a day (C99_order_within_a_day) and for filling (C99_order_matters_for_filling)."
  },
  {
   "property": "C100",
   "status": "partial",
   "theorems": [
    "Silverfox.C100_exact_rule",
    "Silverfox.C100_rule_is_exact",
    "Silverfox.C100_short_money_partial",
    "Silverfox.C100_soonest_due_is_last"
   ],
   "note": "The claim is false of the code (C100_soonest_due_is_last). The exact rule (C100_exact_rule with C100_rule_is_exact) and what follows when money is short are proved."
  },
  {
   "property": "C101",
   "status": "proved",
   "theorems": [
    "Silverfox.C101_more_money_fills_more"
   ],
   "note": "Exact arithmetic."
  },
  {
   "property": "C102",
   "status": "proved",
   "theorems": [
    "Silverfox.C102_line_endings",
    "Silverfox.C102_sessions",
    "Silverfox.C102_rules",
    "Silverfox.C102_import",
    "Silverfox.C102_byte_order_mark"
   ],
   "note": "Imports are covered up to the rules and records read; the table itself must be the same text (its reader is a parameter)."
  },
  {
   "property": "C103",
   "status": "partial",
   "theorems": [
    "Silverfox.C103_goes_on_loading_partial",
    "Silverfox.C103_goes_on_loading_f64_partial"
   ],
   "note": "Exact arithmetic, and doubles with finite fill amounts. Imports must succeed or change nothing, and make entries that read back (`Keeps`, C70); otherwise false (C70_undeclared_account, C71_not_atomic). Other conditions as in C96."
  },
  {
   "property": "C104",
   "status": "proved",
   "theorems": [
    "Silverfox.C104_whatever_came_before",
    "Silverfox.C104_each_alone",
    "Silverfox.C104_a_journal_entry_by_entry"
   ],
   "note": "All magnitudes, floats included. Success only is claimed: which error is reported first may depend on the hash order."
  },
  {
   "property": "C105",
   "status": "partial",
   "theorems": [
    "Silverfox.C105_importing_again",
    "Silverfox.C105_running_again_partial",
    "Silverfox.C105_imported_twice"
   ],
   "note": "The property as a user would want it (nothing is added) is refuted by `C105_imported_twice`. `C105_importing_again` is the exact behaviour for the command itself; the version for two whole runs is partial: it needs entries that can be read back (C70), and no fill in between."
  },
  {
   "property": "C106",
   "status": "proved",
   "theorems": [
    "Silverfox.C106_what_is_written_is_read",
    "Silverfox.C106_import_of_any_writing",
    "Silverfox.C106_every_table_can_be_written",
    "Silverfox.C106_every_plain_text",
    "Silverfox.C106_open_quote",
    "Silverfox.C106_open_quote_imported"
   ],
   "note": "About the model of the crate `csv`, which is not in /repo: `env.csv = csvRecords`. Other theorems about imports hold for any CSV reader. `C106_every_plain_text`: every text without quotes is a table, so that its reading is determined; `C106_open_quote` says what an open quote does."
  },
  {
   "property": "C107",
   "status": "proved",
   "theorems": [
    "Silverfox.C107_report_reads_back",
    "Silverfox.C107_report_reads_back_f64"
   ],
   "note": "Exact arithmetic up to half a hundred-millionth, and doubles with finite totals."
  },
  {
   "property": "C108",
   "status": "partial",
   "theorems": [
    "Silverfox.C108_shown_grows_by_what_is_set_aside",
    "Silverfox.C108_shown_never_falls",
    "Silverfox.C108_without_envelopes_partial",
    "Silverfox.C108_filling_changes_the_report"
   ],
   "note": "Exact arithmetic, for accounts that do not begin with a blank posting (C51). Refuted by C108_filling_changes_the_report; C108_shown_grows_by_what_is_set_aside gives the exact difference, C108_without_envelopes_partial the accounts for which the claim holds."
  },
  {
   "property": "C109",
   "status": "proved",
   "theorems": [
    "Silverfox.C109_written_journal_is_read",
    "Silverfox.C109_declared_account"
   ],
   "note": "Layout of declarations as in C91 and of entries as silverfox writes them (C19); conditions on names and descriptions as there."
  },
  {
   "property": "C110",
   "status": "partial",
   "theorems": [
    "Silverfox.C110_asking_again_partial",
    "Silverfox.C110_once_a_day_partial",
    "Silverfox.C110_once_a_day_exact_partial",
    "Silverfox.C110_asking_again_moves_money"
   ],
   "note": "Second run changes nothing: exact arithmetic, amounts moved of at most 8 decimals; false in doubles (`C110_asking_again_moves_money`). At most once per envelope and day: both arithmetics, envelopes with different names."
  },
  {
   "property": "C111",
   "status": "proved",
   "theorems": [
    "Silverfox.C111_reason_given"
   ],
   "note": "The texts of `io::Error`, chrono and `ParseIntError` and csv errors are parameters."
  },
  {
   "property": "C112",
   "status": "partial",
   "theorems": [
    "Silverfox.C112_quotes_partial",
    "Silverfox.C112_minus_left_out",
    "Silverfox.C112_nothing_quoted"
   ],
   "note": "Up to whitespace and comments. Literally refuted by C112_minus_left_out; C112_nothing_quoted shows an empty quotation."
  },
  {
   "property": "C113",
   "status": "proved",
   "theorems": [
    "Silverfox.C113_blame"
   ],
   "note": "Loading, for an addition that does not begin with an indented line."
  },
  {
   "property": "C114",
   "status": "proved",
   "theorems": [
    "Silverfox.C114_first_mistake",
    "Silverfox.C114_same_words"
   ],
   "note": "Result, error kind, message and context, and the program's standard error. Text that begins with an indented line would continue the last item and is excluded by `StartsUnindented`."
  },
  {
   "property": "C115",
   "status": "partial",
   "theorems": [
    "Silverfox.C115_order_of_postings",
    "Silverfox.C115_loads_iff",
    "Silverfox.C115_filling",
    "Silverfox.C115_envelope_report",
    "Silverfox.C115_envelope_report_one_currency",
    "Silverfox.C115_balance_partial",
    "Silverfox.C115_register_partial",
    "Silverfox.C115_blank_line_first",
    "Silverfox.C115_two_currencies"
   ],
   "note": "Loading (in both directions, as `SameFiles` is used from either side), balances, envelopes and fills: proved. The envelope report: the same lines, in the same order if the account holds one currency. The register: the same text if each entry moves the focus in one currency. The balance report: the same for an account that no entry posts to both with an amount and without; for others it is false (`C115_blank_line_first`). Sums in doubles depend on the order of summation in the last digits, so the claim is made for exact magnitudes."
  },
  {
   "property": "C116",
   "status": "proved",
   "theorems": [
    "Silverfox.C116_from_text_to_report"
   ],
   "note": "Exact arithmetic; amounts printed are within half a unit of the eighth digit. The restriction on blank lines is necessary: C51_blank_first_posting_counts_zero."
  },
  {
   "property": "C117",
   "status": "proved",
   "theorems": [
    "Silverfox.C117_other_entries_do_not_concern_it",
    "Silverfox.C117_the_reports_say_the_same",
    "Silverfox.C117_the_register_is_the_same"
   ],
   "note": "One direction: an entry put in may itself be refused, so a journal need not load with more entries. Entries of other accounts must still be well formed in the fuller journal, which is assumed to load."
  },
  {
   "property": "C118",
   "status": "proved",
   "theorems": [
    "Silverfox.C118_an_amount_is_printed_as_written",
    "Silverfox.C118_the_report_is_exact"
   ],
   "note": "With the condition `Small` (number of lines plus three, times the sum of the weights, at most 2^51 hundred-millionths); beyond it a worst-case rounding error can show. Amounts with more than eight decimals are rounded: C08."
  },
  {
   "property": "C119",
   "status": "proved",
   "theorems": [
    "Silverfox.C119_statement"
   ],
   "note": "Conditions: the bound of C118; accounts left blank occur on an earlier day; the path of the journal is absolute or a bare name; the journal does not end in a carriage return; no percent signs in the records."
  },
  {
   "property": "C120",
   "status": "proved",
   "theorems": [
    "Silverfox.C120_the_register_is_exact",
    "Silverfox.C120_nothing_can_be_listed"
   ],
   "note": "The condition `SwingSmall` bounds number and size of the changes. Names of the two accounts in the line are C78. `C120_nothing_can_be_listed` shows that an entry that changes nothing can be listed."
  },
  {
   "property": "C121",
   "status": "proved",
   "theorems": [
    "Silverfox.C121_from_text_to_envelopes"
   ],
   "note": "With exact arithmetic. Conditions: envelope names and movements in the currency of the envelope (`EnvelopesFit`), an entry with lines that name envelopes has no blank amount (see C13), schedules whose dates exist (see C28)."
  },
  {
   "property": "C122",
   "status": "proved",
   "theorems": [
    "Silverfox.C122_what_filling_writes"
   ],
   "note": "Exact arithmetic. The journal has no options and no included files. The amount on a written line is the fill to eight digits; the report of the same run counts the exact fill."
  },
  {
   "property": "C123",
   "status": "proved",
   "theorems": [
    "Silverfox.C123_from_text_to_envelopes_in_doubles",
    "Silverfox.C123_a_residue_moves_money",
    "Silverfox.C123_a_residue_is_shown"
   ],
   "note": "Doubles. The conditions on size and on entries that leave the account as it was are in the statement; a journal that violates the second is reported wrongly by five (witness). For a goal of 0 only the shape of the bar is claimed."
  },
  {
   "property": "C124",
   "status": "partial",
   "theorems": [
    "Silverfox.C124_envelopes_by_due_date",
    "Silverfox.C124_comparing_envelopes_never_crashes",
    "Silverfox.C124_amounts_by_worth_partial",
    "Silverfox.C124_amounts_by_worth_exact",
    "Silverfox.C124_not_a_number"
   ],
   "note": "Partial: with NaN neither order nor equality is sensible (`C124_not_a_number`)."
  },
  {
   "property": "C125",
   "status": "partial",
   "theorems": [
    "Silverfox.C125_row",
    "Silverfox.C125_other_side_partial",
    "Silverfox.C125_several_accounts"
   ],
   "note": "Partial: `(multiple)` when several accounts of a side are in focus (`C125_several_accounts`)."
  },
  {
   "property": "C126",
   "status": "partial",
   "theorems": [
    "Silverfox.C126_exact_rule",
    "Silverfox.C126_priced_text_to_report_partial",
    "Silverfox.C126_paid_for_in_kind"
   ],
   "note": "Partial: entries whose given lines are all in one foreign currency with a price (`C126_paid_for_in_kind`). `C126_exact_rule` says what is reported on every such journal, those included."
  },
  {
   "property": "C127",
   "status": "partial",
   "theorems": [
    "Silverfox.C127_help",
    "Silverfox.C127_letter_is_enough",
    "Silverfox.C127_announced_reports_partial",
    "Silverfox.C127_new_never_works",
    "Silverfox.C127_advice_is_refused"
   ],
   "note": "Partial: `new` never works (`C127_new_never_works`); the advised command is refused (`C127_advice_is_refused`)."
  },
  {
   "property": "C128",
   "status": "partial",
   "theorems": [
    "Silverfox.C128_exact_rule",
    "Silverfox.C128_several_files_partial"
   ],
   "note": "Missing: entries paid for in kind (see C126), and files in other directories (C54, C55). `C128_exact_rule` needs only the latter: it says what is reported also where entries are paid for in kind."
  },
  {
   "property": "C129",
   "status": "proved",
   "theorems": [
    "Silverfox.C129_exact_rule",
    "Silverfox.C129_priced_exact"
   ],
   "note": "`C129_exact_rule` is the same for the rule the code follows where entries are paid for in kind. Bounds: number of lines plus three times the weights at most 2^51 hundred-millionths, per account and currency."
  },
  {
   "property": "C130",
   "status": "proved",
   "theorems": [
    "Silverfox.C130_any_register",
    "Silverfox.C130_exact_rule",
    "Silverfox.C130_priced_register",
    "Silverfox.C130_nothing_has_a_source"
   ],
   "note": "`C130_any_register` is about the library, for any days and accounts; `C130_exact_rule` also covers entries paid for in kind. Accounts that lose and gain are named for entries that are `Clear` (no blank line worth nothing): `C130_nothing_has_a_source` shows why."
  },
  {
   "property": "C131",
   "status": "proved",
   "theorems": [
    "Silverfox.C131_register_and_balance_agree"
   ],
   "note": "Bounds of C129 and C130 together."
  },
  {
   "property": "C132",
   "status": "proved",
   "theorems": [
    "Silverfox.C132_same_sums_same_report"
   ],
   "note": "The accounts listed may differ where one journal names an account whose lines come to nothing."
  },
  {
   "property": "C133",
   "status": "proved",
   "theorems": [
    "Silverfox.C133_day_after_day"
   ],
   "note": "Exact arithmetic. What a line of an added entry is read as differs from the fill by at most half of the eighth digit. The conditions on the days: the news are well written and in the currencies of the envelopes, and the date is one the program writes and reads back."
  },
  {
   "property": "C134",
   "status": "proved",
   "theorems": [
    "Silverfox.C134_what_filling_writes_in_doubles",
    "Silverfox.C134_a_residue_is_written",
    "Silverfox.C134_due_today_gets_all"
   ],
   "note": "Exact up to less than one unit of the eighth digit; exact if the exact fill has eight decimals (`FillLine.exact`). Conditions: SmallBooks, SmallFills (bounds), BothSides (an entry that touches an envelope without naming one changes both sides; see C123_a_residue_moves_money). C134_a_residue_is_written and C134_due_today_gets_all show where doubles differ from the rational model."
  },
  {
   "property": "C135",
   "status": "proved",
   "theorems": [
    "Silverfox.C135_day_after_day_in_doubles",
    "Silverfox.C135_the_file_may_say_more"
   ],
   "note": "As long as the journal is within the bounds of C134 (the theorem names the first day on which it is not, if there is one). C135_the_file_may_say_more: what a run prints is computed before rounding, so it can differ from what is read afterwards by the eighth digit."
  },
  {
   "property": "C136",
   "status": "proved",
   "theorems": [
    "Silverfox.C136_filled_to_the_last_digit"
   ],
   "note": "Conditions: CanFill (spelled out in the specification), SmallJournal; for the second run SmallBooks of the longer journal."
  },
  {
   "property": "C137",
   "status": "partial",
   "theorems": [
    "Silverfox.C137_exact_rule",
    "Silverfox.C137_accounts_without_movements_partial",
    "Silverfox.C137_set_aside_is_counted_twice"
   ],
   "note": "Refuted by C137_set_aside_is_counted_twice. C137_exact_rule says what is printed for every account: the sum of its ordinary lines and of what is moved in its envelopes; C137_accounts_without_movements_partial gives the accounts for which the claim holds."
  },
  {
   "property": "C138",
   "status": "partial",
   "theorems": [
    "Silverfox.C138_exact_rule",
    "Silverfox.C138_no_asset_set_aside_partial",
    "Silverfox.C138_setting_aside_is_listed"
   ],
   "note": "Refuted by C138_setting_aside_is_listed. C138_exact_rule says what is listed for every such journal; C138_no_asset_set_aside_partial gives the journals for which the claim holds."
  },
  {
   "property": "C139",
   "status": "proved",
   "theorems": [
    "Silverfox.C139_statement_beside_envelopes"
   ],
   "note": "With --no-move. Without it, envelopes that are due are filled before the import (C122, C134). The envelope report is told where SmallBooks and Decided hold (C123), the balance where the conditions of C137 do."
  },
  {
   "property": "C140",
   "status": "proved",
   "theorems": [
    "Silverfox.C140_statement_in_the_register",
    "Silverfox.C140_beside_envelopes"
   ],
   "note": "The names of the accounts between which money flowed are not part of the statement; see C78. Beside envelopes with --no-move."
  },
  {
   "property": "C141",
   "status": "proved",
   "theorems": [
    "Silverfox.C141_every_command_fills_first",
    "Silverfox.C141_failed_but_written"
   ],
   "note": "The exact figures that a report shows in the run that fills are those of C134 and C135 (which may differ in the last digit from what is written)."
  },
  {
   "property": "C142",
   "status": "partial",
   "theorems": [
    "Silverfox.C142_all_the_money_is_there",
    "Silverfox.C142_exact_rule",
    "Silverfox.C142_the_reports_agree_partial",
    "Silverfox.C142_the_reports_disagree"
   ],
   "note": "That all the money is in the envelope report is proved in full. The balance report counts what lines that name envelopes move a second time (see C137), so agreement holds only for accounts whose envelopes no line names; the exact difference is proved."
  },
  {
   "property": "C143",
   "status": "partial",
   "theorems": [
    "Silverfox.C143_exact_rule",
    "Silverfox.C143_what_is_not_set_aside_partial",
    "Silverfox.C143_filling_changes_the_balance"
   ],
   "note": "exact rule and a partial theorem; false in general: lines that name an envelope are counted as money of the account, so filling raises the balance (witness $ 131.25 to $ 175.75). Missing: accounts with envelopes for which something is set aside, for which the exact rule gives the difference"
  },
  {
   "property": "C144",
   "status": "proved",
   "theorems": [
    "Silverfox.C144_register_and_balance_agree"
   ],
   "note": "In full, with doubles: of accounts and currencies with amounts of at most eight decimal digits and small enough totals; the journal may have envelopes and moves."
  },
  {
   "property": "C145",
   "status": "partial",
   "theorems": [
    "Silverfox.C145_nearly_the_same_partial",
    "Silverfox.C145_where_nothing_is_added_partial",
    "Silverfox.C145_the_report_differs",
    "Silverfox.C145_the_envelope_report_differs"
   ],
   "note": "The claim is false, by a witness for each of two reports; for all journals the balance report is proved to be off by at most a hundred-millionth for each line added, and exact where none is added."
  },
  {
   "property": "C146",
   "status": "partial",
   "theorems": [
    "Silverfox.C146_exact_rule",
    "Silverfox.C146_out_of_the_envelope_partial",
    "Silverfox.C146_paid_once_taken_twice",
    "Silverfox.C146_money_back_is_taken_out"
   ],
   "note": "The claim is false where two envelopes are for the same account, and for money that comes back, each by a witness; the exact rule is proved for all payments, and the claim where exactly one envelope is for the account that is paid."
  },
  {
   "property": "C147",
   "status": "proved",
   "theorems": [
    "Silverfox.C147_like_any_other",
    "Silverfox.C147_envelope_report",
    "Silverfox.C147_filling",
    "Silverfox.C147_formats_with_blanks",
    "Silverfox.C147_with_import",
    "Silverfox.C147_statement"
   ],
   "note": "C147_formats_with_blanks: a format with blanks is cut off at its first blank (`mod.rs:133` takes one word), so naming `%d. %m. %Y` fails. Import is covered (C147_with_import, C147_statement) where the rules name a format other than the usual one before the first `if`; rules without a format of their own read the table in the usual format, not in the journal's."
  },
  {
   "property": "C148",
   "status": "proved",
   "theorems": [
    "Silverfox.C148_reports_add_up"
   ],
   "note": ""
  },
  {
   "property": "C149",
   "status": "proved",
   "theorems": [
    "Silverfox.C149_other_accounts"
   ],
   "note": ""
  },
  {
   "property": "C150",
   "status": "partial",
   "theorems": [
    "Silverfox.C150_exact_rule",
    "Silverfox.C150_set_aside_partial",
    "Silverfox.C150_what_comes_in",
    "Silverfox.C150_no_such_envelope",
    "Silverfox.C150_two_of_the_name"
   ],
   "note": "Setting aside: each line must name exactly one envelope of its account. An envelope that is not declared is accepted and ignored (C150_no_such_envelope); an expense and a goal of one name both get the money (C150_two_of_the_name). What comes in: proved."
  },
  {
   "property": "C151",
   "status": "partial",
   "theorems": [
    "Silverfox.C151_undone_partial",
    "Silverfox.C151_totals_are_not_undone"
   ],
   "note": "If a line is blank, no line may have a total behind `=`: a total has no sign (C12), so the blank line gets the same amount in both entries (C151_totals_are_not_undone)."
  },
  {
   "property": "C152",
   "status": "partial",
   "theorems": [
    "Silverfox.C152_carried_forward_partial",
    "Silverfox.C152_closed_before_the_due_date",
    "Silverfox.C152_now_becomes_next",
    "Silverfox.C152_balance_is_not_carried"
   ],
   "note": "Totals of envelopes and what is available: proved for all continuations (C152_carried_forward_partial). The split into now and next is carried only if the journals change before the last due date (C152_closed_before_the_due_date); otherwise refuted by C152_now_becomes_next. The balance report is refuted by C152_balance_is_not_carried."
  },
  {
   "property": "C153",
   "status": "proved",
   "theorems": [
    "Silverfox.C153_paid_out_of_what_there_is_now",
    "Silverfox.C153_set_aside_is_saved",
    "Silverfox.C153_as_days_pass"
   ],
   "note": "Payments are entries of two lines (see C146); of the account that is paid nothing is said."
  },
  {
   "property": "C154",
   "status": "proved",
   "theorems": [
    "Silverfox.C154_own_entries"
   ],
   "note": ""
  },
  {
   "property": "C155",
   "status": "partial",
   "theorems": [
    "Silverfox.C155_exact_rule",
    "Silverfox.C155_taken_back_partial",
    "Silverfox.C155_taking_back_moves_money"
   ],
   "note": "What an envelope has altogether and what is available is as before (partial). The division is not: what is taken back comes out of what there is now, so that the money moves from now to next; `C155_exact_rule` gives the figures for money set aside on or after the last due date and `C155_taking_back_moves_money` is a witness."
  },
  {
   "property": "C156",
   "status": "proved",
   "theorems": [
    "Silverfox.C156_names_mean_nothing",
    "Silverfox.C156_balances_too"
   ],
   "note": ""
  },
  {
   "property": "C157",
   "status": "partial",
   "theorems": [
    "Silverfox.C157_written_as_two_partial",
    "Silverfox.C157_balances_too",
    "Silverfox.C157_split_payment_is_taken_twice"
   ],
   "note": "Balances: proved for all entries (C157_balances_too). Envelopes, partial: for entries that name envelopes, or that have no envelope to come out of, before and after. Otherwise false: a payment written apart from the line that names the envelope is taken out of the envelope for the account paid as well (C157_split_payment_is_taken_twice)."
  },
  {
   "property": "C158",
   "status": "proved",
   "theorems": [
    "Silverfox.C158_new_envelope"
   ],
   "note": ""
  }
 ]
}