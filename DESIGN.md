# silverfox in Lean 4: design

Subject: `/repo` (Rust, 4,112 lines without the test modules). The code was read as text; it was never built
or run. Every theorem is about the Lean model described here, not about the Rust binary.

## 1. Shape of the model

| Lean module | models |
|---|---|
| `Verif/Str.lean` | the `str` methods used (`lines`, `trim`, `split_whitespace`, `find`, `replace`, ...) on `List Char` |
| `Verif/F64.lean` | IEEE-754 binary64 (`f64`): finite values, signed zero, infinities, NaN, round-to-nearest-even, decimal reading and shortest printing |
| `Verif/Mag.lean` | class `Mag` of magnitude operations (no laws), with two instances: `F64` (what the code runs on) and `Rat` (exact arithmetic) |
| `Verif/Date.lean` | `chrono::NaiveDate`: proleptic Gregorian calendar, range, day arithmetic, weekdays |
| `Verif/Codec.lean` | a concrete environment `stdEnv` (date formats of `%Y %m %d` and literal characters, ASCII lower case, CSV as in `Verif/Model/Csv.lean`), used in examples and witnesses and for the date round trip |
| `Verif/Model/Env, World, Csv` | outcomes, environment; files, paths, working directory; the reader of CSV tables |
| `Verif/Model/Utils, Amount, Posting, Entry, Frequency, Envelope, Account, Register, Importer, Ledger, Flags` | the source files of the same names (`Frequency` is in `envelope.rs`; `Flags` has `main.rs` too); every definition cites its lines |
| `Verif/Model/Messages` | `errors.rs`, and message and context of every error |
| `Verif/Proofs/*.lean` | helper lemmas: texts, numerals, calendar, due dates, parsers, loading |
| `Verif/Props/*.lean` | the property theorems, with the specifications they are stated against and concrete cases beside them |

Conventions.

* **Outcomes.** `Res α = Except Fail α`, `Fail = err kind | panic`. A Rust `Err` is `err`; every `unwrap` on
  `None`, failed `assert_eq!`, out-of-range index, `unreachable!`, slice off a character boundary and stack
  overflow is `panic`. Only the error class is kept there; messages and contexts are in `Model/Messages.lean`.
* **Arithmetic.** The model is polymorphic in the magnitude type. Theorems are of three sorts: for every
  `Mag` (no law is used, hence true of `f64`), for `F64`, and for `Rat` where the English property is about exact
  sums. Where a `Rat` theorem is false of `F64` this is shown by a witness.
* **Environment.** `Env` carries what the program reads from outside: today's date, the iteration order of
  hash maps (a function; where it matters theorems assume that it permutes), `chrono`'s date parser and printer,
  Unicode lower-casing, the CSV reader. Theorems quantify over all of them, or state what they assume.
* **World.** Files as a map from absolute paths to contents, which of them may be appended to (`canAppend`),
  and the working directory. Paths are resolved lexically.
* **Loops** become structural recursion, or recursion with fuel. Due-date loops: the fuel is proved
  sufficient for dates away from the ends of chrono's range (`Proofs/Due`). Recursive `include`: running out of
  it is a stack overflow; C83 proves that it cannot change any other outcome, for journals and for rules files.
* **Names.** `Cnn_...` belongs to property Cnn. `_partial`: proved under conditions that the property does not
  have; the comment says what is missing. If the code does not have a property, there is a theorem that says so: for a
  whole family of inputs where possible, and with a concrete witness.

Simplifications of the code, besides those above: hash maps are association lists with unique keys whose order
is only visible through `Env.ord`; `&str` slices are copies; output is the list of lines printed; a command's
effects are the files and that list. Text printed before an abort in the middle of a report is not modelled. No report
returns an error after it began to print: the balance report computes its totals first, the register its rows, and
the envelope report has no errors, only aborts.

## 2. Per property: what is modelled, how it is proved

The statements are in `properties.jsonl`, the status and remarks in `MANIFEST.json`. None of the properties is
inexpressible.

**C01 A pool reports, per currency, the running sum of exactly that currency's amounts** (proved). `AmountPool` (`Pool.add/sub/subAssign/addPool/only`). Spec: fold over the operations of that currency (`specTotal`), net sum over `Rat`. *Proof:* Induction over an arbitrary list of operations; any `Mag`. Negation witness for doubles: order matters. *Theorems:* `C01_pool_reports_running_sum`, `C01_exact_net_sum`, `C01_exact_order_irrelevant`, `C01_float_order_matters`. *Remark:* Any magnitude type; exact net sum over Rat. C01_float_order_matters: with doubles the order of operations matters.

**C02 A pool holds at most one line per currency** (proved). As C01. Spec: the currencies of the lines have no duplicates; a line exists exactly for currencies touched. *Proof:* Invariant of every operation, induction over operation lists. *Theorems:* `C02_one_line_per_currency`, `C02_no_duplicate_line`, `C02_line_iff_touched`.

**C03 A pool is zero exactly when every currency in it is zero** (proved). `Pool.isZero`. Spec: every line reports zero. *Proof:* Case analysis plus C02; exact corollary over `Rat`. *Theorems:* `C03_is_zero_iff_lines`, `C03_is_zero_iff_reports_zero`, `C03_exact_is_zero_iff_net_zero`.

**C04 Arithmetic across currencies is never performed silently** (proved). `Amount.add/sub/subAssign/neg/cmp/eqv`; `assert_eq!` is a panic. *Proof:* Decision logic, any `Mag`. *Theorems:* `C04_different_currencies_abort`, `C04_equal_currencies_work`, `C04_equal_amounts_same_currency`.

**C05 Where the currency symbol stands in an amount does not matter** (proved). `Amount.parse` on all strings. *Proof:* Scan lemmas (`Proofs/Scan`): the parser keeps the number characters and the symbol characters in order, wherever they stand. *Theorems:* `C05_symbol_position`, `C05_numbers`.

**C06 Which texts are amounts** (proved). As C05, with the numeral reader of `F64` and `Rat`. *Proof:* Soundness and completeness of the reader against a grammar of numerals (`Proofs/Numerals`). *Theorems:* `C06_accepted`, `C06_accepted_exact`, `C06_rejected`.

**C07 Digit-group separators are ignored** (partial). As C05. *Proof:* Separators are dropped by the scan; the exception is the deletion of `--` before it (witness `-,-5`). *Theorems:* `C07_separator_partial`, `C07_separators_partial`, `C07_stray_separator`. *Remark:* Holds where the separator is not put between the two dashes of a `--`; C07_stray_separator is the counterexample (`-,-5`).

**C08 A printed amount reads back as the same amount rounded to 8 decimals** (proved). `Amount.display` (rounding to 8 decimals, shortest printing) and `parse`. *Proof:* Round trip by printing/reading lemmas for numerals; conditions on the symbol shown necessary by witnesses. *Theorems:* `C08_round_trip`, `C08_round_trip_exact`, `C08_exact_decimals`, `C08_symbol_with_space`, `C08_overflow`, `C08_other_decimal_symbol`. *Remark:* C08_symbol_with_space, C08_overflow and C08_other_decimal_symbol show that the conditions are needed.

**C09 Clauses of a posting may be written in any order** (proved). `ClassicPosting.parse`: the clauses `!`, `@`, `=` after the amount. *Proof:* For clauses with distinct operators, each is found wherever it stands (`Proofs/Postings`), so that permuting them does not matter. *Theorems:* `C09_clause_order`, `C09_two_clauses`, `C09_reading`.

**C10 Postings to undeclared accounts are rejected** (partial). Posting validation in `Posting.parse`, up to loading a journal. *Proof:* Decision logic, then invariant of loading; envelope postings refute the general claim. *Theorems:* `C10_undeclared_is_rejected_partial`, `C10_declared_before_partial`, `C10_loaded_partial`, `C10_envelope_postings_unchecked`. *Remark:* Ordinary postings only. C10_envelope_postings_unchecked refutes it for envelope postings.

**C11 A posting written by silverfox reads back as the same posting** (proved). `Posting.display` and `Posting.parse`. *Proof:* Round trip using C08; printable amounts characterised for `F64` and `Rat`. *Theorems:* `C11_round_trip`, `C11_printable_f64`, `C11_printable_exact`, `C11_operator_symbol`.

**C12 The native value of a posting** (partial). `get_original_native_value`. *Proof:* Case analysis; the sign of a total cost is lost (witness). *Theorems:* `C12_native_value_partial`, `C12_unit_or_total`, `C12_envelope_posting_has_none`, `C12_total_cost_loses_sign`. *Remark:* Value rule proved with the sign as the code computes it; C12_total_cost_loses_sign refutes the claim for negative quantities with a total cost.

**C13 A blank posting makes a single-currency entry balance** (partial). `get_blank_amount`, single currency. Spec: sum of postings over `Rat`. *Proof:* Induction over postings; exact rule for entries with envelope postings (`Props/Exact`), which refute the general claim. *Theorems:* `C13_blank_balances_partial`, `C13_ordinary_postings_balance`, `C13_envelope_postings_disturb`, `C13_off_by_the_envelopes`. *Remark:* Exact rule in C13_off_by_the_envelopes: the ordinary postings sum to minus what the envelope postings of the entry move, so the claim holds exactly where these cancel; C13_envelope_postings_disturb is a witness.

**C14 A blank posting makes a mixed-currency entry balance in native value** (proved). `get_blank_amount`, mixed currencies. Spec: sum of native values. *Proof:* Induction over postings. *Theorems:* `C14_blank_balances_native`, `C14_unknown_value_refused`.

**C15 An accepted entry has at most one blank posting** (proved). `Entry::validate`, `Entry::parse`. *Proof:* `validate` accepts exactly the lists with at most one blank posting and, if there is one, at most one currency symbol; every parsed entry was validated. *Theorems:* `C15_validate_iff`, `C15_accepted_entry`.

**C16 Every accepted entry balances** (partial). `Entry::parse` on whole texts. *Proof:* Witness: an unbalanced entry is accepted. Partial: entries with a blank posting balance (C13, C14). *Theorems:* `C16_unbalanced_entry_accepted`, `C16_blank_entry_balances_partial`. *Remark:* Refuted by C16_unbalanced_entry_accepted: there is no balance check. Proved for entries with a blank posting.

**C17 Inferring a blank amount never crashes** (partial). `get_blank_amount`; `unwrap` is a panic. *Proof:* Exact characterisation of the aborts; witness and partial theorem follow. *Theorems:* `C17_blank_amount_crashes_iff`, `C17_blank_amount_no_crash_partial`, `C17_only_blank_posting_crashes`. *Remark:* C17_blank_amount_crashes_iff says exactly when it aborts; C17_only_blank_posting_crashes is a witness.

**C18 The entry header is read field by field** (partial). `Entry::parse_header`. *Proof:* Field-by-field characterisation for headers built from their fields; the two families of aborting headers are quantified. *Theorems:* `C18_fields`, `C18_header`, `C18_status_refused`, `C18_date_refused`, `C18_payee_open`, `C18_only_date_aborts`, `C18_crossed_aborts`, `C18_aborts_example`. *Remark:* All fields and refusals proved; the claim is refuted for headers of only a date and for `]` before `[`, which abort (C18_only_date_aborts, C18_crossed_aborts).

**C19 An entry written by silverfox reads back as the same entry** (proved). `Entry::as_parsable` then `Entry::parse`. *Proof:* Round trip from C08, C11, C20, C21, C77 lemmas; the conditions are on descriptions, payee, comment and date text. *Theorems:* `C19_round_trip`, `C19_conditions`.

**C20 Statuses** (proved). `EntryStatus`. *Proof:* Decision logic over all strings. *Theorems:* `C20_status_parse_iff`, `C20_status_refused`, `C20_status_chars`.

**C21 Comments are stripped to the first marker** (proved). `remove_comments` on all strings. *Proof:* Equal to a structurally recursive cut (`rc`), induction over the text. *Theorems:* `C21_cut_at_marker`, `C21_cut_at_first_marker`, `C21_idempotent`, `C21_semicolon_comment_ignored`, `C21_slash_comment_ignored`.

**C22 Weekly due dates** (proved). `Frequency` weekly; calendar by day numbers. *Proof:* Search loops proved to find the least/greatest day in a week (`Proofs/Due`). *Theorems:* `C22_weekly_next`, `C22_weekly_last`.

**C23 Monthly due dates** (proved). `Frequency` monthly, with month lengths. *Proof:* Calendar lemmas (`Proofs/Calendar`), least day whose day-of-month matches (or last of month). *Theorems:* `C23_monthly_next`.

**C24 Every-other-week due dates** (partial). `Frequency` biweekly. *Proof:* Congruence mod 14; witness before the starting date. *Theorems:* `C24_biweekly_next_partial`, `C24_biweekly_skips_first`. *Remark:* Refuted in the fortnight before the starting date by C24_biweekly_skips_first; proved otherwise.

**C25 Every-other-month due dates** (partial). `Frequency` bimonthly. *Proof:* Exact result of the code; witness that today is returned. *Theorems:* `C25_bimonthly_next_partial`, `C25_bimonthly_returns_today`. *Remark:* Refuted by C25_bimonthly_returns_today; the partial theorem gives what the code computes.

**C26 Annual due dates** (partial). `Frequency` annual. *Proof:* Exact value of the due date on every day (`Props/Exact`); witness that it gets stuck. *Theorems:* `C26_annual_next_partial`, `C26_annual_stuck`, `C26_annual_exact`, `C26_leap_day`. *Remark:* Exact rule in C26_annual_exact: right exactly until the first anniversary; C26_leap_day for a start on 29 February. Refuted by C26_annual_stuck.

**C27 One-off due dates** (partial). `Frequency::Once`, `Envelope::get_next_due_date`. *Proof:* Decision logic; exact rule with and without `starting` (`Props/Exact`). *Theorems:* `C27_one_off_partial`, `C27_starting_clause_keeps_due`, `C27_exact`. *Remark:* Exact rule in C27_exact: right exactly without a `starting` clause. Refuted by C27_starting_clause_keeps_due.

**C28 Computing due dates never crashes** (partial). All schedules with dates in chrono's range. *Proof:* Totality by range lemmas; the schedules for which the last due date aborts are characterised. *Theorems:* `C28_next_due_never_crashes`, `C28_last_due_never_crashes_partial`, `C28_unsafe_crashes`. *Remark:* Next due date: proved for all. Last due date: C28_unsafe_crashes gives the schedules that abort.

**C29 The last due date brackets today** (partial). `get_last_due_date`, `get_next_due_date`. *Proof:* From C22-C25; exact rule for annual schedules (`Props/Exact`). *Theorems:* `C29_last_next_bracket_today_partial`, `C29_annual_two_years_apart`, `C29_annual_exact`. *Remark:* Weekly, biweekly, monthly, bimonthly; exact rule for annual schedules in C29_annual_exact (refuted for these by C29_annual_two_years_apart).

**C30 `every other 15th` means the 15th** (partial). `Frequency::parse` of `every other ...`. *Proof:* The named day is shown to be ignored, for every text; witness. *Theorems:* `C30_named_day_is_ignored`, `C30_every_other_weekday_partial`, `C30_every_other_monday_on_saturday`. *Remark:* Refuted by C30_every_other_monday_on_saturday; holds if the starting date falls on the named day.

**C31 An envelope posting changes only the envelope it names** (proved). `Envelope::process_entry` with envelope postings. *Proof:* `processManual` equals applying the amounts naming the envelope; induction. *Theorems:* `C31_others_untouched`, `C31_named_changes_by_postings`, `C31_envelopes_independent`.

**C32 No money appears or vanishes in an envelope** (proved). Histories of entries. Spec: sum of movements (`movement`) over `Rat`. *Proof:* Induction over histories of any length. *Theorems:* `C32_no_money_lost`, `C32_new_envelope`.

**C33 Which pocket a movement goes to** (proved). `apply_amount`. *Proof:* Decision logic, any `Mag`. *Theorems:* `C33_withdrawal_from_now`, `C33_deposit_by_date`.

**C34 When money moves automatically** (proved). `Envelope::infer`. *Proof:* The entry must touch the account and a `for` account, otherwise nothing changes. *Theorems:* `C34_moves_only_if_both`, `C34_else_untouched`.

**C35 How much money moves automatically** (partial). `Envelope::infer`; sums over `Rat`. *Proof:* Induction over postings against `sumTo`; exact rule in `Props/Exact`; witness for refunds. *Theorems:* `C35_spending_partial`, `C35_refund_takes_money`, `C35_exact`. *Remark:* Exact rule in C35_exact, for purchases and refunds; the claim is refuted for refunds by C35_refund_takes_money.

**C36 An entry in another currency never crashes an envelope** (partial). Assertion panics inside `Envelope::process_entry`. *Proof:* Exact characterisation of the aborts, with and without envelope postings (`Props/Exact`); two witnesses. *Theorems:* `C36_manual_no_crash_partial`, `C36_auto_no_crash_partial`, `C36_foreign_envelope_posting_crashes`, `C36_priced_posting_crashes`, `C36_manual_crashes_iff`, `C36_auto_crashes_iff`. *Remark:* Refuted by C36_foreign_envelope_posting_crashes and C36_priced_posting_crashes. C36_manual_crashes_iff and C36_auto_crashes_iff say exactly when processing an entry aborts.

**C37 Automatic filling never takes money out and skips what it must skip** (proved). `get_filling_amount` on `F64` and `Rat`. *Proof:* Order lemmas of `min`/`max` with NaN; decision logic. *Theorems:* `C37_fill_never_negative`, `C37_exact_fill_never_negative`, `C37_skipped_gets_nothing`, `C37_fill_currency`.

**C38 Filling never overfills an envelope** (partial). As C37. *Proof:* Order lemmas; the overfill is exactly the debt; witness. *Theorems:* `C38_no_overfill_partial`, `C38_overfill_is_debt`, `C38_float_no_overfill_partial`, `C38_overdrawn_overfills`. *Remark:* Envelopes that are not overdrawn; refuted otherwise by C38_overdrawn_overfills.

**C39 Filling never spends more than the account has available** (partial). `get_filling_postings`. *Proof:* Induction over envelopes with the shrinking pool, over the rationals and, with an error bound for each rounded subtraction, over doubles; witness for overdrawn envelopes. *Theorems:* `C39_fills_within_available_partial`, `C39_available_stays_partial`, `C39_float_single_fill_partial`, `C39_overdrawn_overspends`, `C39_float_fills_partial`. *Remark:* Envelopes that are not overdrawn. Exact arithmetic: the fills of a currency are together at most what is available. Doubles (C39_float_fills_partial): each fill is finite and not negative, and together they exceed what is available by at most the factor 1 + n/2^52 for n envelopes. Refuted otherwise by C39_overdrawn_overspends.

**C40 Conservative saving finishes just in time** (proved). Filling every day until the due date. Spec: equal instalments, target reached on the due date. *Proof:* Induction over days; the schedule lemma shows the due date constant until it comes. *Theorems:* `C40_equal_instalments`, `C40_just_in_time`.

**C41 Aggressive saving saves all it can at once** (proved). Aggressive funding. Spec: the greatest amount satisfying three bounds. *Proof:* Order lemmas, and invariant `0 ≤ next` over histories. *Theorems:* `C41_aggressive_is_greatest`, `C41_reachable`.

**C42 Filling twice a day is the same as filling once** (proved). `fill_envelopes` twice. *Proof:* Envelope by envelope (`Settled`), then account, then ledger with files; witness for doubles. *Theorems:* `C42_ledger_second_fill`, `C42_loaded_second_fill`, `C42_second_fill_moves_nothing`, `C42_float_second_fill_moves`. *Remark:* Exact arithmetic; C42_float_second_fill_moves shows that doubles need the exception made in the statement.

**C43 Filling never crashes** (proved). Assertions and unwraps in filling. *Proof:* Invariant `Account.WF` of parsing and processing; totality of due dates. *Theorems:* `C43_filling_never_crashes`, `C43_reachable_never_crashes`.

**C44 Available money is real money minus what envelopes hold** (proved). `get_available_value`. Spec: real minus the sum held. *Proof:* Induction over envelopes. *Theorems:* `C44_available`, `C44_available_holds`.

**C45 Envelope movements never change real money** (proved). `Account::process_entry` over histories. *Proof:* Real value is a fold over the ordinary postings; induction. *Theorems:* `C45_real_is_ordinary_postings`, `C45_exact_sum`, `C45_envelope_postings_no_effect`, `C45_declared_account`.

**C46 Envelope names are unique in an account** (partial). `add_envelope`, `Account::parse`. *Proof:* Invariant of parsing; refused exactly for a taken name; witness across the two kinds. *Theorems:* `C46_unique_names_partial`, `C46_refused_iff`, `C46_expense_and_goal_share_a_name`. *Remark:* Within expenses and within goals; refuted across the two by C46_expense_and_goal_share_a_name.

**C47 Entries are kept in date order** (proved). `add_entry` with its stable sort. *Proof:* Sortedness and stability of insertion sort; invariant of loading and of every append; the order is determined by the text order. *Theorems:* `C47_date_order`, `C47_loaded`, `C47_order_is_determined`.

**C48 Blank lines and full-line comments between items do not matter** (proved). `add_from_str` on whole texts. *Proof:* Chunking is shown to ignore ignorable lines; induction over lines. *Theorems:* `C48_sessions`, `C48_blank_lines`.

**C49 A trailing comment never changes the meaning of a line** (partial). As C48, with all parsers. *Proof:* Congruence of every parser for texts that agree up to trailing comments (`SameLines`, `Proofs/Segs`). *Theorems:* `C49_sessions_partial`, `C49_comments_partial`, `C49_envelope_header_comment`. *Remark:* Refuted for some envelope headers by C49_envelope_header_comment; proved for all other lines.

**C50 A comment line inside an envelope is ignored** (partial). `Envelope::add_body`. *Proof:* Refuted for every envelope text with such a line, up to loading a file. *Theorems:* `C50_comment_line_aborts`, `C50_comment_line_aborts_loading`. *Remark:* Refuted: C50_comment_line_aborts (for every such envelope text) and C50_comment_line_aborts_loading.

**C51 The balance report shows, per account, the sum of its postings** (partial). `get_totals`, `display_flat_balance`. *Proof:* Refinement to a fold over postings with the code's exact rule; witnesses; exact sum for accounts without envelope postings whose first posting has an amount. *Theorems:* `C51_exact_rule`, `C51_sum_of_postings_partial`, `C51_exact_sum_partial`, `C51_envelope_postings_are_counted`, `C51_blank_first_posting_counts_zero`, `C51_report_never_fails`. *Remark:* C51_exact_rule says what the report shows; the claim is refuted by the two witnesses and proved where neither case arises.

**C52 The balance report agrees with the account's real value** (partial). `get_totals` and `Account.real`. *Proof:* Both are folds over the same postings; invariant of loading. *Theorems:* `C52_report_is_real_partial`, `C52_same_lines_partial`, `C52_report_and_real_differ`. *Remark:* Refuted by C52_report_and_real_differ; proved for accounts declared once, without envelope postings or a first blank posting.

**C53 Reports do not depend on hash-map iteration order** (proved). Iteration order as a parameter of the environment. *Proof:* Loading, and both reports, are invariant under any two permuting orders; sortedness of the report. *Theorems:* `C53_loading`, `C53_balance_report`, `C53_envelope_report`, `C53_report_sorted`.

**C54 Including a file is the same as pasting it** (partial). `include`, working directory. *Proof:* Induction over the nesting of includes: a file loaded in one world is loaded in the other, the world being the same files with a working directory in which all names used mean the same. One direction needs the same depth, the other at most twice the depth. Concrete journals in one and in three directories. *Theorems:* `C54_anywhere_partial`, `C54_absolute_paths_partial`, `C54_include_is_paste_partial`, `C54_relative_include`. *Remark:* Journals whose include names mean the same from every directory of the journal (`C54_anywhere_partial`), in particular files all in one directory (`C54_include_is_paste_partial`) and absolute paths in any directories (`C54_absolute_paths_partial`). Refuted for relative names in several directories by `C54_relative_include`.

**C55 Declaring an account again does not lose its history** (partial). `parse_account` inserting in the map. *Proof:* Refuted for every ledger; witness. *Theorems:* `C55_redeclaring_resets`, `C55_history_is_lost`. *Remark:* Refuted: C55_redeclaring_resets for every ledger, C55_history_is_lost as witness.

**C56 Directives act from their line on** (partial). `date_format`, `currency` directives. *Proof:* Loading is a fold over items with the last format; `currency` has no effect on any observation. *Theorems:* `C56_entry_uses_last_format`, `C56_account_uses_last_format`, `C56_date_format_line`, `C56_currency_not_used_in_loading`, `C56_currency_line_has_no_effect`, `C56_currency_not_shown`, `C56_currency_is_ignored`. *Remark:* date_format part proved in full. The currency part is refuted: C56_currency_line_has_no_effect for every journal.

**C57 Balance assertions are enforced** (partial). Assertions of postings; adding an entry to a ledger; whole journals. *Proof:* Processing and adding any entry, and running any list of items, are invariant under erasing assertions; any readable assertion is read; witness of a whole journal. *Theorems:* `C57_assertions_do_not_matter`, `C57_accepted_regardless`, `C57_journal_regardless`, `C57_loaded_regardless`, `C57_any_assertion_is_read`, `C57_wrong_assertion_is_loaded`. *Remark:* Refuted: C57_journal_regardless for every journal, C57_wrong_assertion_is_loaded as witness.

**C58 silverfox only ever appends to the journal** (proved). Every command on the world of files (`mainProgram`). *Proof:* Invariant `Extended`: only the journal changes, by appending; preserved by every step. *Theorems:* `C58_append_only`, `C58_no_move_changes_nothing`, `C58_no_move_command_line`.

**C59 Loading errors leave the journal untouched** (proved). As C58. *Proof:* Case analysis of the command; nothing is written before loading succeeded. *Theorems:* `C59_changed_only_if_loaded`, `C59_loading_error`.

**C60 The file that was loaded is the file that is extended** (partial). Paths relative to the changed working directory. *Proof:* Lexical path lemmas; witness. *Theorems:* `C60_absolute_path_partial`, `C60_same_directory_partial`, `C60_relative_path_goes_elsewhere`, `C60_wrong_file_extended`, `C60_one_directory_partial`. *Remark:* Absolute paths and journals in the working directory; refuted otherwise by C60_relative_path_goes_elsewhere.

**C61 A fill entry reloads to what was in memory** (partial). Append, then load the file again. *Proof:* Round trip C19 lifted through loading; conditions shown satisfiable. *Theorems:* `C61_reload_partial`, `C61_reload_f64_partial`, `C61_conditions`. *Remark:* Conditions on the date format, names and amounts that make the written text readable (C61_conditions), and one directory.

**C62 A fill entry holds no zero movement** (proved). `fill_envelopes`. *Proof:* Decision logic over all accounts, with the exact entry appended. *Theorems:* `C62_written_as_zero`, `C62_fill_entry`. *Remark:* Amounts as computed; as written to 8 decimals a movement may be 0 (`C62_written_as_zero`).

**C63 The first matching rule block decides** (proved). Rules with blocks, `get_entry_from_record`. *Proof:* Refinement to `find?` over blocks; lifted to rules texts. *Theorems:* `C63_first_block`, `C63_first_block_read`.

**C64 A pattern matches within a field** (partial). `applies_to`: a pattern occurs in the lower-cased record. *Proof:* What is matched is characterised; witness across a field border. *Theorems:* `C64_across_fields`, `C64_patterns_partial`. *Remark:* C64_across_fields refutes it; the partial theorem says what is matched and that matches within a field suffice.

**C65 A later rule overrides an earlier one and `-` restores the default** (proved). `add_from_line`. *Proof:* Last value wins: fold over lines; layout lemmas. *Theorems:* `C65_last_value`, `C65_read`, `C65_layout`.

**C66 An `if` block inherits the rules above it only** (proved). `if` blocks cloning earlier rules, `include` in rules. *Proof:* Refinement to a fold over blocks (`meaning`). *Theorems:* `C66_blocks`, `C66_root`, `C66_later`, `C66_include`.

**C67 Variables are replaced by the record's values** (partial). `inject_variables` with its iteration order. *Proof:* Simultaneous substitution where no mix-up is possible (`NoMixUp`); three witnesses. *Theorems:* `C67_variables_partial`, `C67_value_with_percent`, `C67_value_like_name`, `C67_empty_name`. *Remark:* Proved where no value can be mixed up with a variable (NoMixUp); three witnesses show what happens otherwise.

**C68 The postings of an imported entry do not depend on hash order** (proved). Postings from field maps with any iteration order. *Proof:* Permutation; witness that the order varies. *Theorems:* `C68_postings`, `C68_order_varies`. *Remark:* C68_order_varies shows that the order of postings does depend on the hash order.

**C69 A one-legged import is completed** (proved). `get_entry_from_record`, completion of a single posting. *Proof:* Case analysis; balance over `Rat` from C13. *Theorems:* `C69_completed`, `C69_balances`, `C69_otherwise`.

**C70 A journal still loads after a successful import** (partial). Import, then load again. *Proof:* Iterated C61; two witnesses. *Theorems:* `C70_loads_partial`, `C70_undeclared_account`, `C70_description`. *Remark:* Proved for printable entries whose accounts are declared; refuted by C70_undeclared_account and C70_description.

**C71 Import is all or nothing** (partial). `import_csv`. *Proof:* What a failure leaves is characterised; witness. *Theorems:* `C71_failure_partial`, `C71_unreadable`, `C71_not_atomic`. *Remark:* Proved: an unreadable rules or CSV file writes nothing, and a failure leaves the entries of the earlier records; refuted by C71_not_atomic.

**C72 Imported entries are appended in record order, skipping the header rows** (proved). CSV records with `skip`. *Proof:* Induction over records. *Theorems:* `C72_records`, `C72_negative_skip`. *Remark:* C72_negative_skip: a negative `skip` skips everything.

**C73 The register shows exactly the entries in range** (partial). `Register::display`. Spec: `InFocus`, `Within`, changes of an entry. *Proof:* Refinement of the printed text to blocks of lines, one block per listed entry; witness for envelope postings. *Theorems:* `C73_listed`, `C73_date_order`, `C73_shown`, `C73_real_changes_partial`, `C73_envelope_entry`. *Remark:* Proved with envelope postings counted as changes (C73_listed) and without envelope postings; refuted for these by C73_envelope_entry.

**C74 The running total is the sum of the lines so far** (proved). As C73. Spec: prefix sums. *Proof:* Induction over rows; exact over `Rat`. *Theorems:* `C74_running_total`, `C74_exact`.

**C75 Command-line flags** (proved). `Flags::parse_from_env`. Spec: spellings of flags. *Proof:* Soundness and completeness against the grammar. *Theorems:* `C75_command_line_iff`, `C75_flag_order_irrelevant`, `C75_refused_executes_nothing`.

**C76 The progress bar always fits** (proved). `make_bar` in `F64` and `Rat`. *Proof:* Clamping lemmas over all doubles. *Theorems:* `C76_share_of_nothing`, `C76_bar_fits`, `C76_bar_is_proportional`.

**C77 Layout of an entry does not matter** (proved). `Entry::parse` on all texts. *Proof:* Congruence of every step for texts with the same trimmed lines. *Theorems:* `C77_layout`.

**C78 The register names where money comes from and goes to** (proved). Flow columns of the register. Spec: accounts with negative/positive changes. *Proof:* Characterisation of `registerLoop`, then of the text. *Theorems:* `C78_flow`, `C78_float`, `C78_exact`.

**C79 A command reports on the journal it was told to use** (proved). `Flags::execute`. Spec: `journalFor`, `Reports`. *Proof:* Both directions: what is printed is the report, and the report is printed. *Theorems:* `C79_report`, `C79_report_printed`, `C79_no_journal`.

**C80 The exit status tells whether the command was carried out** (partial). Exit status in `main`. *Proof:* Refuted for every reported error; witness. *Theorems:* `C80_errors_exit_zero`, `C80_missing_file_exits_zero`, `C80_exit_status_partial`. *Remark:* Refuted by C80_errors_exit_zero and C80_missing_file_exits_zero; the partial theorem says what the status does tell.

**C81 A command that fails leaves the files alone** (partial). `Flags::execute`. *Proof:* Refuted for all journals and four kinds of failing commands; witness; holds with `--no-move`. *Theorems:* `C81_failing_commands_move_money`, `C81_summary_moves_money`, `C81_no_move_partial`. *Remark:* Refuted by C81_failing_commands_move_money (for every journal) and C81_summary_moves_money; holds with --no-move.

**C82 Filling does not depend on the order of hash maps** (proved). `fill_envelopes` with any two iteration orders. *Proof:* Fill postings are a permutation, equal per account; envelopes see only the postings of their account; any `Mag`. *Theorems:* `C82_fill_order`, `C82_loaded_fill_order`.

**C83 Files that include each other are reported** (partial). `include` with a bound on the depth. *Proof:* Refuted for every cycle and every bound (induction on the bound); monotonicity in the bound; both for journals and for rules files. *Theorems:* `C83_depth_only_aborts`, `C83_cycle_aborts`, `C83_rules_depth_only_aborts`, `C83_rules_cycle_aborts`, `C83_two_files_abort`, `C83_two_rules_files_abort`. *Remark:* Refuted for every cycle: C83_cycle_aborts. Proved: the room on the stack never changes what is loaded (C83_depth_only_aborts). The same for rules files.

**C84 Filling envelopes only sets money aside** (partial). `fill_envelopes` on a whole ledger. Spec: `Filled` (real money, each envelope, available per currency). *Proof:* Fill postings per account are found again in the entry by name and account; sums over `Rat`; witness for a shared name. *Theorems:* `C84_filling_conserves_partial`, `C84_available_not_negative_partial`, `C84_loaded_partial`, `C84_shared_name_overspends`. *Remark:* Over Rat, for accounts no two envelopes of which share a name; refuted otherwise by C84_shared_name_overspends.

**C85 A loaded journal can be reported on** (proved). The three reports of a ledger that a command loads. Spec: `Reportable` (day and schedules within the calendar, a format that dates print in). *Proof:* Invariant `Ledger.Inv` of loading and filling; totality of each report under it, for `F64` including infinities and NaN; witness for a bad format. *Theorems:* `C85_reports_are_printed`, `C85_bad_format_aborts`. *Remark:* For binary64; C85_bad_format_aborts shows that the format is needed.

**C86 The envelope report shows every envelope and all its money** (proved). `display_envelopes` as lines. Spec: `ShownAmounts`, `EnvelopeLines`, `SectionLines`, `AccountLines`. *Proof:* Inversion of the report, with sorting of distinct names; case analysis on the sign over `Rat`. *Theorems:* `C86_envelope_lines`, `C86_account_lines`, `C86_report_lists_everything`. *Remark:* Over Rat. What is available may contain a currency twice only as a pool does (C01).

**C87 A journal is loaded or refused, never a crash** (partial). Loading, with all aborts of the code. Spec: `ItemOf`, `ItemAborts`, `Reads`, `PlainItem`, all on the texts of the files. *Proof:* Inversion of every function for the result `panic`; invariant `Ledger.Inv`; induction on the depth of includes and on the lines. Refuted by seven journals. *Theorems:* `C87_what_aborts_partial`, `C87_plain_journal_partial`, `C87_journals_that_abort`. *Remark:* Refuted by C87_journals_that_abort. Proved: only the listed items abort (C87_what_aborts_partial), so journals without envelopes and single postings never do (C87_plain_journal_partial). Missing: nothing of what holds; the full claim is false of the code.

**C88 A journal means its items in order** (proved). Loading as a big-step relation. Spec: `Itemised` (unique division into items), `Denotes`, `Reading`. *Proof:* Both directions: rule induction and induction on the depth; monotonicity in the bound on the depth from C83. *Theorems:* `C88_loading_reads_the_items`, `C88_items_of_a_text`. *Remark:* The depth of includes is not bounded; a cycle has no derivation.

**C89 Writing and reading an amount again and again does not change it** (proved). `rounded_mag` and the text of an amount in doubles. Spec: `F64.value`, the exact value as a rational. *Proof:* Error bounds of rounding to nearest even (`Verif/Proofs/Rounding.lean`), on naturals of arbitrary size; witness for the drift. *Theorems:* `C89_typed_amounts_are_kept`, `C89_written_once`, `C89_rounding_error`, `C89_large_amounts_drift`. *Remark:* For binary64. C89_large_amounts_drift shows that the bound is needed.

**C90 Balances added up in doubles are near the exact sums** (proved). Pools and the balance report in doubles. Spec: `exactSum`, `absSum`, `TypedAs` (the double nearest to a number of hundred-millionths), `PoolOp.parts`. *Proof:* Relative error 2^-53 of one addition without overflow; induction on the additions; `(1+2^-53)^k`; then C89's rounding. Witness for -0. *Theorems:* `C90_pool_error`, `C90_reported_balance`, `C90_whole_numbers_are_exact`, `C90_shown_to_the_last_digit`, `C90_reported_to_the_last_digit`, `C90_nothing_left`. *Remark:* For binary64. For the report with the hypotheses of C51 (no envelope posting, first posting has an amount). C90_nothing_left: a sum of zero may be shown as -0.

**C91 An account declaration means what it says** (proved). `Account.parse` with everything below it. Spec: `Sched` (written schedules and their meaning), `DueClause.Means`, `StartMeans`, `PropLine`, `EnvDecl` (a written envelope with its layout), `IsWritten` (the envelope is the one written). *Proof:* First and last occurrences of a word in a line are found through the words of the line (`find_spaced`, `rfind_spaced`, `noDate_words`), so the place of ` due `, ` by `, ` starting ` follows from which words occur; induction on properties and on envelopes. Negations by witness for names `starting` and `by`, two spaces, comments with `starting`, and schedules that are none. *Theorems:* `C91_schedules`, `C91_declaration_means_what_it_says`, `C91_headers_misread`, `C91_schedules_not_checked`. *Remark:* Layout: single spaces around the words of the due and starting clauses (two are refused, C91_headers_misread), no comments inside the declaration; a name is not `starting`, and not `by` in a header with `due`.

**C92 The register is a table** (partial). `Register.display` with the computed widths. Spec: `Cols`, `Front`, `LaidOut` (a block as padded texts), `excess` (bytes beyond characters). *Proof:* The widths are maxima over all rows, so every pad is a true padding; length of every line; witness with an accent. *Theorems:* `C92_layout`, `C92_first_lines`, `C92_columns_line_up_partial`, `C92_accents_shift`. *Remark:* C92_columns_line_up_partial: for ASCII texts; with others continuation lines are shifted (C92_accents_shift). C92_layout and C92_first_lines hold for all texts.

**C93 A journal means the same on every day** (partial). Loading on two days. Spec: `SameLedger`, `SameAccount`, `SameEnvelope` (all but the split of the money), `SafeFiles` on the texts of the files. *Proof:* Simulation of the two runs through the relation `Denotes` of C88, with a relation `Passage` on the splits that every movement keeps; C28 for the day; witness for a bill of the 31st. *Theorems:* `C93_same_on_every_day_partial`, `C93_same_money_partial`, `C93_not_on_every_day`. *Remark:* For schedules whose last due date exists on every day (SafeFiles); refuted otherwise by C93_not_on_every_day. C93_same_on_every_day_partial for any arithmetic, C93_same_money_partial over Rat.

**C94 As days pass, money is only released** (proved). `get_last_due_date`, `get_next_due_date` on two days; loading on two days. Spec: `Released`. *Proof:* Monotonicity from the first-after characterisations of C22, C23 and of two months; subtraction of months keeps the order; then the simulation of C93. *Theorems:* `C94_last_due_moves_forward`, `C94_next_due_moves_forward`, `C94_money_is_only_released`. *Remark:* Money over Rat. C94_money_is_only_released assumes SafeFiles as C93 does.

**C95 What the entry of an imported record says** (proved). `RuleVals.entry` as a whole, on top of `inject`, `recordVars`, `recordPostings`, `completePostings`. *Proof:* `Props/Imported.lean`: a specification of what a template says (`Says`, pieces and their meaning), of the posting of a rule (`PostingMade`) and of the completion (`Completed`); the theorem composes C67, C68 and C69. *Theorems:* `C95_record`, `C95_column_named_twice`. *Remark:* Values with percent signs and mixed-up names are refuted under C67; they are excluded here by `GoodColumns` and `NoMixUp` inside `Says`.

**C96 A journal goes on loading, whatever is reported on whatever days** (partial). `mainProgram` run again and again (`afterRuns`), each run with its own day, hash order, directory and arguments. *Proof:* `Props/Sessions.lean`: invariant `Going` (loads on every day, all loads similar by the simulation of C93), kept by each run: the entry appended by a fill reads back rounded (C61) on any day, and an entry of envelope postings is always processed when same-named envelopes share a currency. *Theorems:* `C96_goes_on_loading_partial`, `C96_goes_on_loading_f64_partial`, `C96_filling_breaks_the_journal`. *Remark:* Exact arithmetic, and doubles with finite fill amounts. Conditions: absolute path (C60), safe schedules (C93), days that can be written in the date format, plain currency symbols, no expense and goal of one name in different currencies (refuted: `C96_filling_breaks_the_journal`). Imports are in C103.

**C97 The balances of all accounts add up to zero** (partial). `get_totals`, `display_flat_balance`, blank amounts. *Proof:* The sum of the balances of any accounts changes, posting by posting, by what the posting moves; induction over postings and entries gives the exact rule, the claim follows from it. *Theorems:* `C97_exact_rule`, `C97_books_balance_partial`, `C97_blank_entries_balance`, `C97_first_posting_blank`. *Remark:* Exact arithmetic. Holds when no account begins with a blank posting (such a posting is left out of the report, C97_first_posting_blank); C97_exact_rule says by how much the report is off in every other journal.

**C98 The register ends with the balance of the balance report** (partial). `as_register_data`, `print_lines`, `get_totals`. *Proof:* C74 for the figures of the lines, the exact rule of C97 for the accounts in focus; entries not shown change nothing. *Theorems:* `C98_exact_rule`, `C98_register_ends_with_balance_partial`, `C98_first_posting_blank`. *Remark:* Exact arithmetic. Holds when no account in focus begins with a blank posting; C98_exact_rule says by how much they differ otherwise, C98_first_posting_blank is a witness.

**C99 The order of the entries in a journal does not matter** (partial). Loading (items in order, includes), `add_entry`, `process_entry` of accounts and envelopes. *Proof:* Processing an entry changes the money of an envelope by an amount that does not depend on the money there is, so two entries commute on envelopes, accounts and ledgers; induction over permutations; the meaning of items (C88) lifts it to files. *Theorems:* `C99_order_of_entries`, `C99_reports_partial`, `C99_envelope_lines`, `C99_order_matters_for_filling`, `C99_order_within_a_day`. *Remark:* Exact arithmetic. Real values, envelopes and entries for all permutations; reports when no two entries are of one day. Refuted for the balance report within a day (C99_order_within_a_day) and for filling (C99_order_matters_for_filling).

**C100 When money is short, the envelope due soonest is filled first** (partial). Account.fillingPostings in Model/Account.lean against a relation Served: envelopes are served one after the other from the money of each currency, each by what it wishes, what is left, and its debt. *Proof:* Props/Priority.lean. Induction on the list of envelopes; the relation is deterministic, so it is the exact rule. The order by due date is refuted on a parsed account. *Theorems:* `C100_exact_rule`, `C100_rule_is_exact`, `C100_short_money_partial`, `C100_soonest_due_is_last`. *Remark:* The claim is false of the code (C100_soonest_due_is_last). The exact rule (C100_exact_rule with C100_rule_is_exact) and what follows when money is short are proved.

**C101 More money never fills an envelope less** (proved). The same relation, run from two amounts of money. *Proof:* Props/Priority.lean. One fill is a clamp of the money left, so both the fill and the rest are monotone in it; induction on the envelopes. *Theorems:* `C101_more_money_fills_more`. *Remark:* Exact arithmetic.

**C102 How the lines of a file end does not matter** (proved). mainProgram in Model/Flags.lean on two disks whose files differ in line endings (an inductive relation on texts), in sequences of runs. *Proof:* Props/LineEnds.lean. The texts have the same lines but for an empty one at the end; loading depends on the lines that say something only; appending the same text keeps that; simulation over the runs. *Theorems:* `C102_line_endings`, `C102_sessions`, `C102_rules`, `C102_import`, `C102_byte_order_mark`. *Remark:* Imports are covered up to the rules and records read; the table itself must be the same text (its reader is a parameter).

**C103 A journal goes on loading, whatever is reported and imported** (partial). `mainProgram` run again and again, reports and imports (`afterRuns`), each run with its own day, hash order, directory, arguments. *Proof:* `Props/ImportRuns.lean`: invariant `Loading` (loads on every day, all loads similar); each appended entry that reads back keeps it. The ledger in memory holds the unrounded fill, the file the rounded one: they differ only in the money of envelopes, so both accept the same imported entries. *Theorems:* `C103_goes_on_loading_partial`, `C103_goes_on_loading_f64_partial`. *Remark:* Exact arithmetic, and doubles with finite fill amounts. Imports must succeed or change nothing, and make entries that read back (`Keeps`, C70); otherwise false (C70_undeclared_account, C71_not_atomic). Other conditions as in C96.

**C104 Each entry is accepted or refused by itself** (proved). `add_entry` on any ledger, and loading of journals given by their items (C88). *Proof:* A relation `LedDecl` (same declarations, whatever money and entries) is kept by `add_entry`; success of `add_entry` is shown to depend only on it (each envelope and account step in turn), then induction over the entries; journals by the meaning of C88. *Theorems:* `C104_whatever_came_before`, `C104_each_alone`, `C104_a_journal_entry_by_entry`. *Remark:* All magnitudes, floats included. Success only is claimed: which error is reported first may depend on the hash order.

**C105 Importing the same table again** (partial). `import_csv`, and two runs of `import -n` through `main`. *Proof:* The first import gives the entries made of the records; by C104's invariant each is accepted again, and `append_entry` writes the same text. *Theorems:* `C105_importing_again`, `C105_running_again_partial`, `C105_imported_twice`. *Remark:* The property as a user would want it (nothing is added) is refuted by `C105_imported_twice`. `C105_importing_again` is the exact behaviour for the command itself; the version for two whole runs is partial: it needs entries that can be read back (C70), and no fill in between.

**C106 How the table of an import is written does not matter** (proved). The CSV reader, as the state machine of the crate `csv-core` with the settings of importer.rs:48-50 (`Verif/Model/Csv.lean`). *Proof:* A grammar of ways to write a table (`WritesTable`), independent of the reader; the reader is run over it by induction over fields, records and rows. *Theorems:* `C106_what_is_written_is_read`, `C106_import_of_any_writing`, `C106_every_table_can_be_written`, `C106_every_plain_text`, `C106_open_quote`, `C106_open_quote_imported`. *Remark:* About the model of the crate `csv`, which is not in /repo: `env.csv = csvRecords`. Other theorems about imports hold for any CSV reader. `C106_every_plain_text`: every text without quotes is a table, so that its reading is determined; `C106_open_quote` says what an open quote does.

**C107 The balance report can be read back** (proved). `display_flat_balance` of a loaded journal. *Proof:* A reader of the report that knows only its columns (`readReport`), run over the printed lines by induction over accounts and their amounts; names are words because they were read as words; totals by C51, amounts by C08. *Theorems:* `C107_report_reads_back`, `C107_report_reads_back_f64`. *Remark:* Exact arithmetic up to half a hundred-millionth, and doubles with finite totals.

**C108 Filling envelopes leaves the balance report as it was** (partial). `Ledger.fillEnvelopes`, `Ledger.totals`, `Account.fillingPostings`. *Proof:* Refuted by a run of the program (`C108_filling_changes_the_report`). Proved instead: the exact rule C97 before and after, with the fill entry sorted in at its date, and the fill postings of an account picked out of all of them as in C84. *Theorems:* `C108_shown_grows_by_what_is_set_aside`, `C108_shown_never_falls`, `C108_without_envelopes_partial`, `C108_filling_changes_the_report`. *Remark:* Exact arithmetic, for accounts that do not begin with a blank posting (C51). Refuted by C108_filling_changes_the_report; C108_shown_grows_by_what_is_set_aside gives the exact difference, C108_without_envelopes_partial the accounts for which the claim holds.

**C109 A journal that is written out is read as what is written** (proved). `Ledger.fromFile` with all parsers. *Proof:* A big-step specification `Journal` of written journals, by induction on which the effective lines are read item by item: entries by C19, declarations by C91, included files by the induction hypothesis with a bound on the depth. *Theorems:* `C109_written_journal_is_read`, `C109_declared_account`. *Remark:* Layout of declarations as in C91 and of entries as silverfox writes them (C19); conditions on names and descriptions as there.

**C110 Asking for a report again on the same day changes nothing** (partial). `mainProgram`, several runs over the files that each run leaves behind. *Proof:* The first part composes C61 (the extended journal loads to what was in memory), C42 (after a fill, all fill postings are zero), C53 (hash order) and that no report shows comments. The second is an invariant over the runs of a day: every envelope named by an appended entry has its last movement today, and such envelopes are skipped (C37). *Theorems:* `C110_asking_again_partial`, `C110_once_a_day_partial`, `C110_once_a_day_exact_partial`, `C110_asking_again_moves_money`. *Remark:* Second run changes nothing: exact arithmetic, amounts moved of at most 8 decimals; false in doubles (`C110_asking_again_moves_money`). At most once per envelope and day: both arithmetics, envelopes with different names.

**C111 A failed command says what is wrong** (proved). `Model/Messages.lean`: the value of every error (`errors.rs` and every place where an error is made), as functions `…Why` beside the functions of the model; `Proofs/Messages.lean` proves that they agree with the model on when and with which class there is an error. Texts made by libraries are parameters. *Proof:* Every `…Why` function returns errors with a message (and context for processing errors); class by `tells_main`. *Theorems:* `C111_reason_given`. *Remark:* The texts of `io::Error`, chrono and `ParseIntError` and csv errors are parameters.

**C112 What an error quotes stands in the journal** (partial). As C111, for `Ledger::from_file`. `content`: a file without comments and whitespace; `Points`: the error leads to a place in it. *Proof:* Invariant through the line loop: the current chunk has no comments and its letters stand in the file; the contexts are parts of it. *Theorems:* `C112_quotes_partial`, `C112_minus_left_out`, `C112_nothing_quoted`. *Remark:* Up to whitespace and comments. Literally refuted by C112_minus_left_out; C112_nothing_quoted shows an empty quotation.

**C113 An error is about what was added** (proved). As C112; the same text twice, with and without the addition. *Proof:* The old lines load again in the changed world (as in C54); the rest by the invariant of C112. *Theorems:* `C113_blame`. *Remark:* Loading, for an addition that does not begin with an indented line.

**C114 The first mistake is the one that is reported** (proved). Loading with messages (`Model/Messages.lean`): result, message and context of the error of loading a journal, and the text printed on standard error. *Proof:* Either the scan of the journal's includes ends, and then the journal itself is not read meanwhile (`scanLines_hide`), so all reading is the same; or it does not end, and then no nested reading of the journal succeeds, so a simulation over the depth of includes takes every result, failures included, from one world to the other. A failure in some lines is a failure of those lines with others after them. *Theorems:* `C114_first_mistake`, `C114_same_words`. *Remark:* Result, error kind, message and context, and the program's standard error. Text that begins with an indented line would continue the last item and is excluded by `StartsUnindented`.

**C115 The postings of an entry may be written in any order** (partial). Loading from a disk (`Model/Ledger.lean`), filling, envelope report, register and balance report, with exact magnitudes. `SameFiles` says of two disks that each file is cut into the same items, but that an entry may have its lines after the first in another order. *Proof:* An induction over the reading relation `Denotes` takes a loading of the first disk to a loading of the second, keeping `RearrangedLedger`: the same entries up to a permutation of postings, the same envelopes, the same money up to the order of currencies. Each step shows that validation, the inferred amount, manual and automatic envelope movements and the sums of the accounts do not depend on the order. The reports then follow from the relation. *Theorems:* `C115_order_of_postings`, `C115_loads_iff`, `C115_filling`, `C115_envelope_report`, `C115_envelope_report_one_currency`, `C115_balance_partial`, `C115_register_partial`, `C115_blank_line_first`, `C115_two_currencies`. *Remark:* Loading (in both directions, as `SameFiles` is used from either side), balances, envelopes and fills: proved. The envelope report: the same lines, in the same order if the account holds one currency. The register: the same text if each entry moves the focus in one currency. The balance report: the same for an account that no entry posts to both with an amount and without; for others it is false (`C115_blank_line_first`). Sums in doubles depend on the order of summation in the last digits, so the claim is made for exact magnitudes.

**C116 The balance report is the sum of what is written** (proved). The whole way from the characters of the journal to the characters of the report: main, flags, scanner, header, postings, amounts, blank amounts, sorting by date, totals, display. The specification (`WrittenJournal`, `WrittenAmount`, `PEntry.moves`, `writtenSum`) speaks of lines and numerals only and uses none of the model's parsers. *Proof:* `C116_from_text_to_report`: every well-written item is one the scanner cuts out (`Itemised`) and that is read (`Reading`), by induction on the items; the entries read are those written, in date order (`DateOrdered`); C13 gives the blank amounts, C51 the sums, C107 the report as text, C79 the command. *Theorems:* `C116_from_text_to_report`. *Remark:* Exact arithmetic; amounts printed are within half a unit of the eighth digit. The restriction on blank lines is necessary: C51_blank_first_posting_counts_zero.

**C117 What is not posted to an account does not concern it** (proved). Loading with included files, account and envelope processing, totals, filling, the three reports, for any magnitudes. The specification (`LeavesOut`, `FilesLeaveOut`, `Unnamed`) speaks of the items of the files and of their words. *Proof:* `C117_other_entries_do_not_concern_it`: a simulation over the derivation of `Denotes`; the two ledgers keep the same declarations (C113), the same chosen accounts and the same entries of them (`Besides`); an entry without a posting of the account leaves account and envelopes alone. `C117_the_reports_say_the_same` (balance and envelope reports) and `C117_the_register_is_the_same` follow from it. *Theorems:* `C117_other_entries_do_not_concern_it`, `C117_the_reports_say_the_same`, `C117_the_register_is_the_same`. *Remark:* One direction: an entry put in may itself be refused, so a journal need not load with more entries. Entries of other accounts must still be well formed in the fuller journal, which is assumed to load.

**C118 The balance report is exact to the last digit although amounts are doubles** (proved). The real arithmetic (doubles, `round8`, the shortest-text printing of `format!`) along the whole way of C116. `Shortest.lean` shows what the search of `F64.fmt` prints for the double nearest to a decimal of at most eight places: that decimal. *Proof:* `C118_an_amount_is_printed_as_written`: the search finds a text of at most eight decimals (the candidate at eight decimals is one) and any such text that reads as the same double is the same decimal (`reads_as_only`, from the distance of neighbouring hundred-millionths). `C118_the_report_is_exact`: C116 generalised to any arithmetic that reads numerals (`written_report`); the error of every sum, also of the inferred amounts of blank lines, is bounded (`NearTo`, `sumF_near`) and stays below half a hundred-millionth, so that `round8` finds the exact sum. *Theorems:* `C118_an_amount_is_printed_as_written`, `C118_the_report_is_exact`. *Remark:* With the condition `Small` (number of lines plus three, times the sum of the weights, at most 2^51 hundred-millionths); beyond it a worst-case rounding error can show. Amounts with more than eight decimals are rounded: C08.

**C119 Importing a bank statement changes the balances by exactly what the statement says** (proved). a row of a statement (`BankRow`: a date, a description, an amount as in C116), rules (`StatementRules`: the five lines fields, date_format, account1, amount1, account2 and perhaps decimal_symbol, with blank lines anywhere), the amount as the bank writes it (`InNotation`: word by word the amount of a journal with another decimal symbol, and points and commas between the digits), the entry a row stands for written by hand (`BankRow.entry`), the sum of the rows (`statementSum`); the whole program is run twice, `import` and then `balance` *Proof:* `C119_statement`: the rules are read (C66) to what they say; each row gives an entry (C95; `notation_posting`: the notation of the bank is read as the same amount) whose printed text (`row_entry`) is a well-written entry again, because an amount of at most eight decimals is printed as such an amount (`printed_again`); by induction over the rows the journal stays a well-written journal (`rows_imported`); C118 then gives the report, and the hash order of the two postings does not matter for sums (`stand_weighedIn`) *Theorems:* `C119_statement`. *Remark:* Conditions: the bound of C118; accounts left blank occur on an earlier day; the path of the journal is absolute or a bare name; the journal does not end in a carriage return; no percent signs in the records.

**C120 The register is exact to the last digit** (proved). The whole way from the text of a journal to the lines of the register, in doubles. The specification reads the journal (`PEntry.assets`, `PEntry.shift`), orders the entries (`InDateOrder`) and says what each block of lines must be (`ListedAs`, `Listing`) without any function of the model for entries, pools or sums. *Proof:* loading by C116 (`WrittenJournal.loads`), the columns by C92, doubles by C118 (`sumF_near`, `sumF_shown`): the change is a sum of doubles near to hundred-millionths and so is the total of the changes; an entry that is left out has a change that is zero as a double, hence zero. Induction over the entries in order of date. *Theorems:* `C120_the_register_is_exact`, `C120_nothing_can_be_listed`. *Remark:* The condition `SwingSmall` bounds number and size of the changes. Names of the two accounts in the line are C78. `C120_nothing_can_be_listed` shows that an entry that changes nothing can be listed.

**C121 The envelope report is the sum of what is written** (proved). The whole way from the text of a journal with envelopes to the text of the envelope report, in exact arithmetic. The specification reads the journal (`BEntry.movesIn`, `PEntry.automatic`, `nowOf`, `nextOf`, `heldOf`, `availableOf`) and says what each part of the report must be (`AccountPart`, `AvailablePart`, `SectionPart`, `EnvelopePart`, `IsBar`) without any function of the model for entries, envelopes, accounts or pools; schedules by `lastDue` and `nextDue`, which C22 to C29 characterise. *Proof:* `EnvelopeJournal.loads` (generic in the magnitudes) reads declarations (C91) and entries line by line, and keeps the invariant `AccountNow`: after any number of entries every envelope has the sums so far. Then exact arithmetic, C44 (what is available), C76 (bars), C08 (printed amounts), C79 (commands). The text is only required to have the given lines up to comments, blank lines and trailing blanks (`HasLines`, by the relation of C49); printed amounts are read with `WrittenAmount` (`Shows`), independently of the parser. *Theorems:* `C121_from_text_to_envelopes`. *Remark:* With exact arithmetic. Conditions: envelope names and movements in the currency of the envelope (`EnvelopesFit`), an entry with lines that name envelopes has no blank amount (see C13), schedules whose dates exist (see C28).

**C122 What filling the envelopes writes, from the text of the journal** (proved). loading as in C121, `fillAll`, `fillingPostings`, `fillLoop`, `fillingAmount`, `fillEnvelopes`, `appendEntry`, `asParsable`, the report *Proof:* `C122_what_filling_writes` (Props/FillText.lean). The specification speaks of what is written only: `FillsFrom` serves the declared envelopes in the order `serving` from `availableOf`; `FillOf` is what one gets, by `wishOf`, `nextOf`, `heldOf` (C121) and `lastMoved`, the day of the last entry that does something to it. The loaded accounts are related to the declarations by `AccountFull`; the fills come from C43 (no crash) and C100 (the rule), translated by `served_fills`; the fill entry is applied by `fill_step` and the rest is the report of C121 for the journal with the entry `fillOf` added. `lastDue` and `nextDue` are characterised by C22 to C29. Hypotheses: those of C121, a path that is absolute or a bare name, permission to append, envelopes of one account with the same name have the same currency (otherwise the entry is written but cannot be processed), a date format that prints. The text may have comments (`HasLines`). *Theorems:* `C122_what_filling_writes`. *Remark:* Exact arithmetic. The journal has no options and no included files. The amount on a written line is the fill to eight digits; the report of the same run counts the exact fill.

**C123 The envelope report with doubles is exact to the last digit** (proved). loading as in C121 with `F64`, `Envelope.applyAmount`, the automatic movement, `Account.available`, `Envelope.display`, `makeBar`, `Amount.display` *Proof:* `C123_from_text_to_envelopes_in_doubles` (Props/EnvelopeCent.lean), with the arithmetic in Props/NearTo.lean. Every double that is kept is shown to be near (`NearTo`) a whole number of hundred-millionths, the exact sum, with an error bounded by its weight: typed amounts, blank lines (C118), what an entry gains (`gain_near`), the automatic movement through `min`, `abs` and the sign (`near_automatic`, which needs the condition `Decided`), what is held (`held_near`), what is available (`available_partF`); a double so near is printed as that number (`shown_sum`). Multiplication and division of the bar are bounded by `mul_err` and `div_err`. `C123_a_residue_moves_money` shows that the condition is needed, `C123_a_residue_is_shown` that a line for nothing can appear. Hypotheses: those of C121, `SmallBooks`, `Decided`. The text may have comments (`HasLines`). *Theorems:* `C123_from_text_to_envelopes_in_doubles`, `C123_a_residue_moves_money`, `C123_a_residue_is_shown`. *Remark:* Doubles. The conditions on size and on entries that leave the account as it was are in the statement; a journal that violates the second is reported wrongly by five (witness). For a goal of 0 only the shape of the bar is claimed.

**C124 Amounts and envelopes are ordered sensibly** (partial). `Ord`/`PartialEq` of `Amount` and `Envelope` (`Amount.cmp`, `Amount.eqv`, `Envelope.cmp`, `Envelope.eqv`). *Proof:* Case analysis over `Sooner`, an order of optional days defined apart from the model, and the values of finite doubles; a NaN as witness. *Theorems:* `C124_envelopes_by_due_date`, `C124_comparing_envelopes_never_crashes`, `C124_amounts_by_worth_partial`, `C124_amounts_by_worth_exact`, `C124_not_a_number`. *Remark:* Partial: with NaN neither order nor equality is sensible (`C124_not_a_number`).

**C125 What the register knows about an entry** (partial). All of `as_register_data`, also what the table does not print. *Proof:* From `registerData_ok` (C78) and a specification of last parts of names. *Theorems:* `C125_row`, `C125_other_side_partial`, `C125_several_accounts`. *Remark:* Partial: `(multiple)` when several accounts of a side are in focus (`C125_several_accounts`).

**C126 Prices, totals, asserted balances and payees, from the text to the balance report** (partial). The whole path from the text with all clauses to the printed report, in exact arithmetic. *Proof:* `Props/Blocks`: a journal of any blocks that are read as entries is loaded and reported; `Props/Priced`: the full grammar of a line is read (C09), blanks are worth what C13 and C14 say, the sums follow. Prices are counted as the specification of C12 does, a total with its sign as written. *Theorems:* `C126_exact_rule`, `C126_priced_text_to_report_partial`, `C126_paid_for_in_kind`. *Remark:* Partial: entries whose given lines are all in one foreign currency with a price (`C126_paid_for_in_kind`). `C126_exact_rule` says what is reported on every such journal, those included.

**C127 The help can be followed** (partial). `display_help` is modelled line by line (`Model/Help`). *Proof:* The announcements are read from the text of the help; then C75 and C85; `new` by cases of `execute`. *Theorems:* `C127_help`, `C127_letter_is_enough`, `C127_announced_reports_partial`, `C127_new_never_works`, `C127_advice_is_refused`. *Remark:* Partial: `new` never works (`C127_new_never_works`); the advised command is refused (`C127_advice_is_refused`).

**C128 A journal kept in several files is reported as one** (partial). Files as texts with `account`, `currency`, `date_format`, `include` and entries with prices, totals, asserted balances and payees, in any order (`QItem`, `Holds`); `Spread` puts included files in the places of the `include` lines; `WellWritten` tracks the format and the declared accounts along the spread list. *Proof:* Induction over the tree of includes: each item is read as the specification says (`spread_read`), the fuel of the model being at least the depth; then as for C126. *Theorems:* `C128_exact_rule`, `C128_several_files_partial`. *Remark:* Missing: entries paid for in kind (see C126), and files in other directories (C54, C55). `C128_exact_rule` needs only the latter: it says what is reported also where entries are paid for in kind.

**C129 With prices, the report of the program is exact to the last digit** (proved). As for C128, but with the model's IEEE-754 doubles in place of exact numbers. Reading, products, sums and rounding to eight digits are those of the program. *Proof:* `NearTo` (a double within a weight times 2^-52 of an amount in hundred-millionths) is kept by products of typed amounts (`TypedAs.mul`), by the subtractions that make a blank line (`nearBy_rest`) and by the sums (`sumF_shown`); the report for any magnitudes (`qentries_report`, `spread_load`) is shared with C128. *Theorems:* `C129_exact_rule`, `C129_priced_exact`. *Remark:* `C129_exact_rule` is the same for the rule the code follows where entries are paid for in kind. Bounds: number of lines plus three times the weights at most 2^51 hundred-millionths, per account and currency.

**C130 With prices and several files, the register of the program is exact to the last digit** (proved). As for C129 (texts, files, doubles); the register as it is printed, line by line and column by column. *Proof:* The rows of the model's register are those of C120 (`C92` for the columns, `C73_shown` for being printed); the double behind each figure stays near the exact change (`QEntry.Fine.lines_near`, `changes_as`), and the running total near the exact total (`sway_one`, `rows_of`), so both are printed as the exact numerals (`change_shown`). `ByDay` is derived from the stable order of C47. *Theorems:* `C130_any_register`, `C130_exact_rule`, `C130_priced_register`, `C130_nothing_has_a_source`. *Remark:* `C130_any_register` is about the library, for any days and accounts; `C130_exact_rule` also covers entries paid for in kind. Accounts that lose and gain are named for entries that are `Clear` (no blank line worth nothing): `C130_nothing_has_a_source` shows why.

**C131 The register ends with what the balance report says** (proved). As for C129 and C130: both reports on the same world. *Proof:* What the balance report says (`saidOf`) is a sum over all lines (`said_sum`, by counting each line under its account once), and so is the last total (`register_end`, by induction over the blocks of the register). *Theorems:* `C131_register_and_balance_agree`. *Remark:* Bounds of C129 and C130 together.

**C132 Journals with the same sums have the same report** (proved). As for C129: two worlds, two journals, two command lines. *Proof:* Both reports are sums over lines (`said_sum`, `pricedSum_everyLine`), which are equal. *Theorems:* `C132_same_sums_same_report`. *Remark:* The accounts listed may differ where one journal names an account whose lines come to nothing.

**C133 Filling the envelopes day after day** (proved). As C122, on any number of days; between the runs text is appended to the journal by hand (`eachMorning`). The specification `Diary` chains `FilledOn` (C122's rule for one day) over the entries the journal has on each day. *Proof:* `C133_day_after_day` (Props/DayAfterDay.lean), by induction on the days with C122 for each run. What has to be shown in between is that the text written by the program is a well-written journal again: the appended entry has its header with a comment (`addition_lines`), each written amount reads as a number with eight digits near the fill (`reread_line`, `Reread`), and a text with well-written lines after a well-written journal is one (`HasLines.append`, `EnvelopeJournal.append`). *Theorems:* `C133_day_after_day`. *Remark:* Exact arithmetic. What a line of an added entry is read as differs from the fill by at most half of the eighth digit. The conditions on the days: the news are well written and in the currencies of the envelopes, and the date is one the program writes and reads back.

**C134 What filling the envelopes writes, with doubles** (proved). `mainProgram F64` as in C122 (text of declarations and entries, loading, `fillEnvelopes`, `fillEntry`, `asParsable`, append, report) with the doubles of Verif/F64.lean *Proof:* Each envelope holds, and each account has available, a double near an exact sum (C123). One fill is the composition of minimum, maximum, difference and quotient; minimum and maximum are 1-Lipschitz (`fill_lipschitz`), and the fill is written as what is left minus a quantity that does not increase with the error (`fill_close`), so that errors add up along the envelopes instead of multiplying (`loop_fills`, an induction over the envelopes with a bound per currency). What is written is within 5/8 of the eighth digit of any double (`display_close`); together less than one. *Theorems:* `C134_what_filling_writes_in_doubles`, `C134_a_residue_is_written`, `C134_due_today_gets_all`. *Remark:* Exact up to less than one unit of the eighth digit; exact if the exact fill has eight decimals (`FillLine.exact`). Conditions: SmallBooks, SmallFills (bounds), BothSides (an entry that touches an envelope without naming one changes both sides; see C123_a_residue_moves_money). C134_a_residue_is_written and C134_due_today_gets_all show where doubles differ from the rational model.

**C135 Filling the envelopes day after day, with doubles** (proved). As C134, run by run (`eachMorning F64`), with the text of the journal carried from day to day *Proof:* Induction over the days as in C133. The lines that C134 writes have at most eight decimals (`FillLine`), so that reading them again gives the very same amounts (`same_line`, `same_cents`); the journal with the new entry is again a journal of the same accounts (`addition_lines`, `refill_fits`). *Theorems:* `C135_day_after_day_in_doubles`, `C135_the_file_may_say_more`. *Remark:* As long as the journal is within the bounds of C134 (the theorem names the first day on which it is not, if there is one). C135_the_file_may_say_more: what a run prints is computed before rounding, so it can differ from what is read afterwards by the eighth digit.

**C136 Full to the last digit, and shown as written** (proved). As C134, followed by a second run of `mainProgram F64` on what the first has left on disk *Proof:* In exact numbers the envelope gets all that is missing (`FillBy.all`), since the envelopes served before it take no more than they ask for (`fills_at`, induction over the envelopes); that has eight decimals (`missing_whole`), so C134's line says exactly that (`FillLine.exact`), and it is the only line naming the envelope (`account_line`, `accounts_line`). The journal with the new entry is one as in C123 (`fill_reread`), which gives the report. *Theorems:* `C136_filled_to_the_last_digit`. *Remark:* Conditions: CanFill (spelled out in the specification), SmallJournal; for the second run SmallBooks of the longer journal.

**C137 The balance report of a journal with envelopes is the sum of its ordinary lines** (partial). The whole way from the characters of a journal with envelopes (`EnvelopeJournal`, C121) to the characters of the balance report, with doubles. The specification adds up what the ordinary lines bring (`writtenSum`, C116) and what the lines that name envelopes move (`asideSum`). *Proof:* Refuted by a run of the program (`C137_set_aside_is_counted_twice`). Proved instead: the totals of an entry are those of the entry in which the lines naming envelopes are ordinary lines (`countAll_counted`, induction over entries and postings); such entries satisfy what the error bound of C118 needs (`PEntry.Sound`), so that every line shows its sum exactly; that sum is the one of the specification (`counted_moves`, `counted_sum`). *Theorems:* `C137_exact_rule`, `C137_accounts_without_movements_partial`, `C137_set_aside_is_counted_twice`. *Remark:* Refuted by C137_set_aside_is_counted_twice. C137_exact_rule says what is printed for every account: the sum of its ordinary lines and of what is moved in its envelopes; C137_accounts_without_movements_partial gives the accounts for which the claim holds.

**C138 The register of a journal with envelopes shows what its ordinary lines move** (partial). As C137, for the register (`Listing`, `ListedAs`, C120). *Proof:* Refuted by a run of the program (`C138_setting_aside_is_listed`). Proved instead: the rows of an entry are those of the entry in which the lines naming envelopes are ordinary lines (`registerData_counted`), then as for C120 (`change_as`, `listing_of`). Where no line moves money in envelopes of accounts beginning with "asset", the two listings are the same (`counted_assets`, `listing_counted`, induction over the listing). *Theorems:* `C138_exact_rule`, `C138_no_asset_set_aside_partial`, `C138_setting_aside_is_listed`. *Remark:* Refuted by C138_setting_aside_is_listed. C138_exact_rule says what is listed for every such journal; C138_no_asset_set_aside_partial gives the journals for which the claim holds.

**C139 A bank statement imported into a journal with envelopes** (proved). The import command on a journal with envelopes, then the envelope report and the balance report, each run of the whole program with doubles; the rows of the statement as entries written by hand (`BankRow.byHand`). *Proof:* By induction over the rows (`rows_imported_beside`): the entry written for a row is read back as an entry that stands for the row (`row_entry`), so that the journal stays a journal with envelopes, whose entries are like those by hand (`BEntry.Alike`: same day, same postings up to order). The reports depend on entries only up to that (`alike_report`, `alike_written`), then C123 and C137. *Theorems:* `C139_statement_beside_envelopes`. *Remark:* With --no-move. Without it, envelopes that are due are filled before the import (C122, C134). The envelope report is told where SmallBooks and Decided hold (C123), the balance where the conditions of C137 do.

**C140 The rows of an imported statement in the register** (proved). The import command, then the register on any later day, each a run of the whole program with doubles; the listing as in C120 (`Listing`, `ListedAs`) and, beside envelopes, as in C138. *Proof:* The import writes entries like those by hand (`statement_imported`, C139). The days, which determine the order (`order_determined`), the marks, the descriptions, the changes and the order of the currencies are the same for entries that are alike (`alike_listing`, induction over the listing), so that C120 and C138 apply. Every entry that changes something has a block (`Listing.block`), and the block of a row is one line (`row_line`). *Theorems:* `C140_statement_in_the_register`, `C140_beside_envelopes`. *Remark:* The names of the accounts between which money flowed are not part of the statement; see C78. Beside envelopes with --no-move.

**C141 Every command fills the envelopes first, and all in the same way** (proved). Every command, each a run of the whole program with doubles, on a journal from its text; the statement as in C139, but without --no-move. *Proof:* The ledger that every command has after filling is the same (`filled_ledger`, taken out of the proof of C134; the envelopes in it are those of the declarations). Balance and register are total on it (`displayBalance_total`, `register_total`). The rows are added to it one after the other (`rows_imported_after`, induction; `processAll_kept`: an envelope that has been read can take in every entry in its currency), and the text with the filling and the rows is again a journal with envelopes (`filled_after`). `C141_failed_but_written` is a concrete run for each command that fails. *Theorems:* `C141_every_command_fills_first`, `C141_failed_but_written`. *Remark:* The exact figures that a report shows in the run that fills are those of C134 and C135 (which may differ in the last digit from what is written).

**C142 All the money of an account is in the envelope report, and in the balance report** (partial). Two whole runs with doubles: `silverfox envelopes --no-move` and `silverfox balance --no-move` on one journal; a reader of the printed lines alone (paragraphs, indentation, labels, the slash) stands on the specification side. *Proof:* `EnvelopeAgree.lean`: `figure_read` shows that what stands between the label and the first slash of a printed line is the amount (a slash cannot be in a text that reads as an amount unless the currency has one); `report_read` reads the paragraphs back from C123; the sums follow from `held_split`, `kinds_perm` and the definition of what is available. `C142_exact_rule` joins this with C137: the balance report has what lines that name envelopes move once more. `C142_the_reports_agree_partial` is the claim where no line names an envelope of the account; `C142_the_reports_disagree` is a journal on which the claim is false. *Theorems:* `C142_all_the_money_is_there`, `C142_exact_rule`, `C142_the_reports_agree_partial`, `C142_the_reports_disagree`. *Remark:* That all the money is in the envelope report is proved in full. The balance report counts what lines that name envelopes move a second time (see C137), so agreement holds only for accounts whose envelopes no line names; the exact difference is proved.

**C143 Filling the envelopes moves no money: the balance report before and after** (partial). three runs of the whole program with doubles: `balance -n`, any command that fills (C141), `balance -n` on the journal it left; what the reports say is read back from their lines (`reportedFor`, as in C131) *Proof:* the run of the filling command is C141 (the new journal is the old one and one entry of lines that name envelopes, and meets the same conditions); both balance runs are `balance_said` (C142's reading); what the entry adds is `asideSum`, bounded below by `fillBy_nonneg`; that the sums stay small enough for exact reading after the fill follows from a bound on what is set aside (`RoomToFill`) *Theorems:* `C143_exact_rule`, `C143_what_is_not_set_aside_partial`, `C143_filling_changes_the_balance`. *Remark:* exact rule and a partial theorem; false in general: lines that name an envelope are counted as money of the account, so filling raises the balance (witness $ 131.25 to $ 175.75). Missing: accounts with envelopes for which something is set aside, for which the exact rule gives the difference

**C144 Register and balance report agree on journals with envelopes** (proved). two runs of the whole program with doubles (`balance -n` and `register -n`) on a journal with envelopes; the figures are read back from the printed lines (`readReport`, `EndWith`, as in C131) *Proof:* the balance run is C137 (`balance_said`), the register run is C138; the end of the listing by induction on it (`listing_end`), the sum over the accounts of the report exchanged with the sum over all lines (`sum_over_keys`) *Theorems:* `C144_register_and_balance_agree`. *Remark:* In full, with doubles: of accounts and currencies with amounts of at most eight decimal digits and small enough totals; the journal may have envelopes and moves.

**C145 A command that fills the envelopes reports the journal it leaves** (partial). two runs of the whole program with doubles: `balance` (which fills the envelopes first), and `balance -n` on the journal it left; what the reports say is read back from their lines (`reportedFor`) *Proof:* the first run is `filled_ledger`, which says what the ledger in memory holds after the fill: the entries as read, and one whose amounts are doubles within 5/8 of a hundred-millionth of what was written (`LineOf`); `mixed_shown` bounds what a sum of doubles, some of them not yet rounded, is printed as; `FilledEntries.said` is the report of that ledger; the second run is `balance_said` *Theorems:* `C145_nearly_the_same_partial`, `C145_where_nothing_is_added_partial`, `C145_the_report_differs`, `C145_the_envelope_report_differs`. *Remark:* The claim is false, by a witness for each of two reports; for all journals the balance report is proved to be off by at most a hundred-millionth for each line added, and exact where none is added.

**C146 What is paid comes out of the envelope for it** (partial). The program run on two journals that differ in one entry (`BEntry.Pays`: two lines, one account pays, another is paid); the two reports are read back from their lines (C142) and compared envelope by envelope and currency by currency (`Differs`). *Proof:* `C146_exact_rule`: every envelope of the paying account that is for the paid one has that much less, other envelopes nothing, and `n - 1` times the amount more is available if there are `n` such envelopes; the same for the paid account with `n + 1`; nothing for other accounts. What is held and what is available are sums over the entries, so one entry adds its own part; C142 says the report shows these sums exactly. `C146_out_of_the_envelope_partial` is the case `n = 1`. Negations by witness: `C146_paid_once_taken_twice`, `C146_money_back_is_taken_out`. *Theorems:* `C146_exact_rule`, `C146_out_of_the_envelope_partial`, `C146_paid_once_taken_twice`, `C146_money_back_is_taken_out`. *Remark:* The claim is false where two envelopes are for the same account, and for money that comes back, each by a witness; the exact rule is proved for all payments, and the claim where exactly one envelope is for the account that is paid.

**C147 A journal may write its dates in another format** (proved). The whole program with a journal whose first line is `date_format F` (ledger/mod.rs:114,133-146), against the same program without that line in an environment whose calendar takes F for the usual format: reading the main file and every included one, all reports, filling the envelopes and writing the entry, and import; the import rules have a date format of their own, which does not follow the journal's. *Proof:* Every function that takes a date format is shown to give the same with (environment `env`, format F) and with (`env.reading F`, usual format); an induction over the fuel and the chunks of the files carries this through reading with includes, where the only line that may change the format is the first one; then the commands one by one. For import, an invariant of reading rules files (every block has a format other than the usual one) shows that tables are read alike in both. C147_envelope_report, C147_filling and C147_statement transport C123, C134 and C139 through that. Journals with a format with blanks: negation by witness (C147_formats_with_blanks). *Theorems:* `C147_like_any_other`, `C147_envelope_report`, `C147_filling`, `C147_formats_with_blanks`, `C147_with_import`, `C147_statement`. *Remark:* C147_formats_with_blanks: a format with blanks is cut off at its first blank (`mod.rs:133` takes one word), so naming `%d. %m. %Y` fails. Import is covered (C147_with_import, C147_statement) where the rules name a format other than the usual one before the first `if`; rules without a format of their own read the table in the usual format, not in the journal's.

**C148 The reports of books kept apart add up** (proved). Three runs of `mainProgram` (arguments, included files, reading, the balance report as printed, read back by `readReport`) with doubles; `BooksOf` collects the conditions of C129 and names the entries; `saidOf` sums what a report says. *Proof:* Each report is exact (C129_exact_rule), so its figures are sums over the lines of the entries (`said_sum`); a permutation of the entries permutes the lines. *Theorems:* `C148_reports_add_up`.

**C149 Accounts can be renamed and put together** (proved). As C148; `QEntry.Rebooked ρ` compares two entries line by line: same amounts and clauses, accounts by ρ. *Proof:* The amount a line without one gets depends only on amounts and clauses (`rebooked_booked`); so the lines of the new journal are those of the old with ρ applied to the accounts (`rebooked_lines`), and the sums over lines agree. *Theorems:* `C149_other_accounts`.

**C150 What comes in is available, and what is set aside is in the envelope named** (partial). Two runs of `mainProgram` with doubles, the envelope report read back by `readEnvelopes` (C142); `Differs` compares what is said of an account. `BEntry.puts`, `brings`, `setsAside`: what the lines of the entry say. *Proof:* `one_more` (C146) for any entry; exchanging the sums over envelopes and over lines (`takes_eq`). *Theorems:* `C150_exact_rule`, `C150_set_aside_partial`, `C150_what_comes_in`, `C150_no_such_envelope`, `C150_two_of_the_name`. *Remark:* Setting aside: each line must name exactly one envelope of its account. An envelope that is not declared is accepted and ignored (C150_no_such_envelope); an expense and a goal of one name both get the money (C150_two_of_the_name). What comes in: proved.

**C151 An entry with the opposite amounts undoes an entry** (partial). As C148. `QEntry.Reversed`: same accounts and clauses, opposite amounts, blank lines blank, lines in any order. *Proof:* What a blank line gets is the opposite too (`reversed_booked`: single currency, or prices), so the lines of the two entries cancel in every sum (`reversed_lines`). *Theorems:* `C151_undone_partial`, `C151_totals_are_not_undone`. *Remark:* If a line is blank, no line may have a total behind `=`: a total has no sign (C12), so the blank line gets the same amount in both entries (C151_totals_are_not_undone).

**C152 A new journal can be begun with what the accounts and envelopes have** (partial). two journals (layout as in C121) with the same declarations: the old one `es ++ fs`, and a new one that begins with an opening entry `b` and goes on with `fs`; `BEntry.Opens` says, from what is written alone, that the ordinary lines of `b` bring what the old entries brought and its envelope lines put in what the envelopes hold; the reports are read back from the printed lines *Proof:* from C142 for both journals (its specification now gives both figures of each envelope), sums over appended entries, and uniqueness of sorted lists for the order of the paragraphs *Theorems:* `C152_carried_forward_partial`, `C152_closed_before_the_due_date`, `C152_now_becomes_next`, `C152_balance_is_not_carried`. *Remark:* Totals of envelopes and what is available: proved for all continuations (C152_carried_forward_partial). The split into now and next is carried only if the journals change before the last due date (C152_closed_before_the_due_date); otherwise refuted by C152_now_becomes_next. The balance report is refuted by C152_balance_is_not_carried.

**C153 What is paid comes out of what there is now, and on the due date what is saved is there now** (proved). two envelope reports of journals (layout as in C121) that differ by one entry, or of one journal on two days, read back from the printed lines; `FiguresDiffer` relates the two figures of each envelope of an account in the one report and in the other *Proof:* from C142 (whose specification gives the two figures as sums over the entries), with the sums for one more entry, and C94 for the last due dates of two days *Theorems:* `C153_paid_out_of_what_there_is_now`, `C153_set_aside_is_saved`, `C153_as_days_pass`. *Remark:* Payments are entries of two lines (see C146); of the account that is paid nothing is said.

**C154 What the envelope report says of an account depends on its own entries only** (proved). two journals (layout as in C121) with possibly different accounts and entries; `concerning` picks, from what is written, the entries with a line for the account or a line that names an envelope of it; the reports are read back from the printed lines *Proof:* from C142 for both journals; the sums over all entries are sums over those that concern the account, and do not depend on the order *Theorems:* `C154_own_entries`.

**C155 Setting money aside and taking it back leaves the envelope report as it was** (partial). the report for a journal (layout as in C121) with the two entries and without them, read back from the printed lines; `BEntry.TakenBack` compares the two entries as written *Proof:* from C142 for both journals and the sums with one entry more (C153); with doubles, exactly; the division into now and next by cases on the sign of what there is now *Theorems:* `C155_exact_rule`, `C155_taken_back_partial`, `C155_taking_back_moves_money`. *Remark:* What an envelope has altogether and what is available is as before (partial). The division is not: what is taken back comes out of what there is now, so that the money moves from now to next; `C155_exact_rule` gives the figures for money set aside on or after the last due date and `C155_taking_back_moves_money` is a witness.

**C156 The names of accounts and envelopes mean nothing to the reports of envelopes and balances** (proved). two journals (layout as in C121) related by `BEntry.Renamed` and `EnvelopeRenamed`, which compare what is written; the reports are read back from the printed lines *Proof:* from C142 and C137 for both journals; what an entry moves in an envelope and brings to an account is the same under the other names, by induction over the lines, as the renamings are injective *Theorems:* `C156_names_mean_nothing`, `C156_balances_too`.

**C157 An entry may be written as two of the same day** (partial). two journals (layout as in C121) that differ in that an entry is written as two; `BEntry.SplitInto` compares what is written, `BEntry.Quiet` says when nothing but the lines that name envelopes moves money in them; the reports are read back from the printed lines *Proof:* from C142 and C137 for both journals; what the entry moves is, up to order, what the two move *Theorems:* `C157_written_as_two_partial`, `C157_balances_too`, `C157_split_payment_is_taken_twice`. *Remark:* Balances: proved for all entries (C157_balances_too). Envelopes, partial: for entries that name envelopes, or that have no envelope to come out of, before and after. Otherwise false: a payment written apart from the line that names the envelope is taken out of the envelope for the account paid as well (C157_split_payment_is_taken_twice).

**C158 A new envelope is empty and leaves the others as they are** (proved). the journal (layout as in C121) with the envelope and without it; `Unused` says of what is written that no entry has to do with the envelope; the reports are read back from the printed lines as lists of figures *Proof:* from C142 for both journals; the list of figures is computed from what is written, and has one member more *Theorems:* `C158_new_envelope`.

## 3. Where the code does not do what one would rely on

Each item is proved of the model by the theorem named.

Amounts and postings
* A symbol may contain a space and is then printed in a way that is refused when read (`C08_symbol_with_space`);
  1e301 prints as `inf` (`C08_overflow`); printing always uses `.`, whatever the decimal symbol
  (`C08_other_decimal_symbol`).
* An amount above 22 million may change every time it is written and read (`C89_large_amounts_drift`).
* $0.30, all of which is spent in two payments, leaves a balance that is not zero and is shown as `$-0`
  (`C90_nothing_left`).
* `--` is deleted before separators are, so `-,-5` is refused and `--5` is 5; a comma standing alone is refused (`C07_stray_separator`).
* Envelope postings are not checked against the declared accounts (`C10_envelope_postings_unchecked`).
* A total cost (`=`) loses the sign of the quantity (`C12_total_cost_loses_sign`).
* A posting whose symbol is an operator does not read back (`C11_operator_symbol`).

Entries
* Entries need not balance (`C16_unbalanced_entry_accepted`); an entry with only a blank posting aborts
  (`C17_only_blank_posting_crashes`); envelope postings are counted when a blank amount is inferred
  (`C13_envelope_postings_disturb`).
* A header that is only a date, or has `]` before `[`, aborts (`C18_only_date_aborts`, `C18_crossed_aborts`).
* Balance assertions are never checked (`C57_assertions_do_not_matter`).

Due dates
* Up to a fortnight before its starting date, a biweekly schedule skips that date (`C24_biweekly_skips_first`).
* On a due date, the next due date of a bimonthly schedule is today (`C25_bimonthly_returns_today`).
* An annual due date stays at the first anniversary for ever (`C26_annual_stuck`), and the last due date is then two
  years before the next (`C29_annual_two_years_apart`).
* With a `starting` clause an envelope without a date, or whose date has passed, stays due
  (`C27_starting_clause_keeps_due`).
* For some schedules there are days on which computing the last due date aborts (`C28_unsafe_crashes`).
* The day named after `every other` is ignored (`C30_named_day_is_ignored`).

Envelopes
* A refund takes money out of an envelope (`C35_refund_takes_money`).
* A foreign or priced posting can abort (`C36_foreign_envelope_posting_crashes`, `C36_priced_posting_crashes`).
* An overdrawn envelope is overfilled by its debt, beyond what is available (`C38_overfill_is_debt`,
  `C39_overdrawn_overspends`).
* With doubles a second fill on a day can move something (`C42_float_second_fill_moves`).
* An expense and a goal may have the same name (`C46_expense_and_goal_share_a_name`); a fill of one is then given to
  both, and more is set aside than there is (`C84_shared_name_overspends`).
* A comment line in an envelope aborts loading (`C50_comment_line_aborts_loading`); a comment after a
  goal's date in its header makes the journal unreadable (`C49_envelope_header_comment`).

Ledger
* The balance report counts envelope postings and a first blank posting as zero
  (`C51_envelope_postings_are_counted`, `C51_blank_first_posting_counts_zero`), so it differs from the real value
  (`C52_report_and_real_differ`).
* Declaring an account again loses its history (`C55_redeclaring_resets`).
* `currency` has no effect (`C56_currency_line_has_no_effect`).
* The working directory changes with every file read: relative includes and the file appended to go elsewhere
  (`C54_relative_include`, `C60_relative_path_goes_elsewhere`, `C60_wrong_file_extended`).
* Seven kinds of small journals abort instead of being refused (`C87_journals_that_abort`); apart from cycles
  these are all (`C87_what_aborts_partial`).
* Files that include each other abort (`C83_cycle_aborts`, and `C83_rules_cycle_aborts` for rules).

Import
* Patterns match across fields (`C64_across_fields`); values can be taken for variables
  (`C67_value_with_percent`, `C67_value_like_name`, `C67_empty_name`); the order of postings varies between runs
  (`C68_order_varies`); undeclared accounts and descriptions can make the journal unloadable
  (`C70_undeclared_account`, `C70_description`); a failure leaves earlier records (`C71_not_atomic`); a negative
  `skip` skips everything (`C72_negative_skip`).

Register and commands
* The register counts envelope postings (`C73_envelope_entry`).
* Reported errors exit with status 0 (`C80_errors_exit_zero`); a command that fails has already filled the
  envelopes (`C81_failing_commands_move_money`).
* The register aborts if the journal's last `date_format` is one that dates cannot be written in
  (`C85_bad_format_aborts`); nothing checks a format when it is read.
* An envelope named `starting` or `by` is refused, so are two spaces after `due` and a header with a comment that
  has the word `starting` (`C91_headers_misread`); `every 1x5`, `every 0th`, `every 99th` are read as days of a month
  and `volcano dates` as `no date` (`C91_schedules_not_checked`).
* In the register, the line for a further currency is shifted to the right by one place for every byte beyond the first of
  each character in the descriptions (widths are taken with `len`, padding counts characters) (`C92_accents_shift`).
* A journal that loads on one day may abort on another: a bill of the 31st and an envelope posting abort the program on
  1 March (`C93_not_on_every_day`).
* C96: with an expense and a goal of the same name in one account but in different currencies, the automatic fill posting to one of them is also applied to the other, which aborts — after the entry was written to the journal, so that the journal aborts on every later load. `C96_filling_breaks_the_journal`.
* C97, C98: a blank posting that is the first of its account is left out of the balance report, so that balances do not add up to zero and differ from the running total of the register. `C97_first_posting_blank`, `C98_first_posting_blank`.
* C99: the date of the last movement of an envelope is that of the entry processed last, not of the latest one. Whether an envelope is filled today therefore depends on the order of entries in the journal. `C99_order_matters_for_filling`.
* C100: `account.rs` says envelopes are kept sorted ("finish by sorting envelopes", with an order by due date in `envelope.rs`), but nothing sorts them, and filling goes through them backwards so that "envelopes are drained more safely". As a fill never drains, the effect is that the envelope declared last, goals before expenses, is filled first: with 500 in the bank a holiday in a year and a half gets all of it and the rent due tomorrow nothing.
* C102: a byte order mark at the beginning of a journal becomes part of the first word, so that the journal does not load (`C102_byte_order_mark`).
* C105: importing a table twice puts its records into the journal twice; nothing detects records that were imported before (`C105_imported_twice`, `C105_importing_again`).
* C106: a quote that is not closed in a table is not reported; the rest of the table becomes one value, and if it is used as a description the journal does not load any more (`C106_open_quote`, `C106_open_quote_imported`).
* C108: every fill raises the balance shown for the account by the amount set aside; an account with 30 of which 30 are set aside is shown with 60 (`C108_filling_changes_the_report`, `C108_shown_grows_by_what_is_set_aside`).
* C110: with 10 and 20 cents in an account and two goals, asking for the balance moves 0.3 to one goal; asking again moves the 5.6e-17 by which 0.1 + 0.2 exceeds 0.3 to the other, and appends an entry `envelope a trip 0` (`C110_asking_again_moves_money`). On each further day such an entry may be appended again.
* Errors about amounts quote the amount without its double minus signs (`C112_minus_left_out`: `1.2--.3` is quoted as `1.2.3`); a price, total or balance without an amount (`3 @`) yields an error that quotes nothing (`C112_nothing_quoted`); so does `by  starting …`.
* **C115**: the balance report depends on the order of the postings of an entry if the entry posts to one account both with an amount and without, and it is the first to mention the account: with `x` (blank), `x 10`, `y -3` it shows 10 for `x`, with `x 10`, `x` (blank), `y -3` it shows 3 (`C115_blank_line_first`; `get_totals`, src/ledger/mod.rs:220–257, takes a blank posting that comes first for zero). The order of currencies within an entry of the register is the order of its postings (`C115_two_currencies`).
* C120: an entry that moves 0.1 and 0.2 to one asset account and 0.3 from another changes nothing, and yet the register lists it, with change 0: the sum of the doubles is 5.6e-17, and `is_zero` compares with zero exactly although the printed figures are rounded to eight decimals (`C120_nothing_can_be_listed`).
* **A residue of rounding decides the direction of an automatic movement** (C123, `C123_a_residue_moves_money`): an entry with `bank $0.30`, `bank $-0.10`, `bank $-0.20`, `shop $-5`, `pay $5` leaves the bank as it was, but the doubles leave −2.8e-17. For an envelope of the bank `for shop` the code then takes the bank's change for negative and puts $5 into the envelope that exact arithmetic takes out of it. In the same way a currency of which nothing is available can be listed as `-0 €` (`C123_a_residue_is_shown`).
* An amount that is not a number (an infinite amount less itself) counts as neither less nor greater than any other, and not as equal to itself (`C124_not_a_number`).
* With several accounts in focus on one side, the single name of an entry is `(multiple)` although the other side has one account (`C125_several_accounts`).
* Shares bought at a price with the paying line left blank are paid for with shares: the price is only used when the entry also has an amount without a symbol (`C126_paid_for_in_kind`).
* The help announces `new`, which never works (`C127_new_never_works`); the message about a missing journal advises `silverfox -f …`, which is always refused (`C127_advice_is_refused`).
* C128: nothing new is wrong, but a `date_format` in an included file goes on to hold in the file that includes it; a user may expect it to end with the file.
* C130 (`C130_nothing_has_a_source`): a blank line that gets nothing (0.1 + 0.2 - 0.3) can make its account appear as where the money comes from, because the doubles leave a residue.
* **Division by nothing.** Rational numbers in Lean have `x / 0 = 0`; doubles have infinity or NaN. This matters in two places. (1) The bar of an envelope with a goal of 0: the program prints a full bar, the rational model an empty one (`C76_share_of_nothing`); C121, C122 and C133 therefore say nothing of such bars. (2) An envelope filled `conservative`ly on the very day it is due (possible with a yearly schedule whose date is stuck, or a `starting` clause): the program gives all that is missing, the rational model (C122, C133, C100) gives nothing (`C134_due_today_gets_all`). C134 states the behaviour of the program (`wishBy`).
* **C137, C138**: lines that move money in envelopes are counted by the balance report and by the register as if they were ordinary lines for the account (src/ledger/mod.rs:220–257, src/entry.rs `as_register_data`): of $ 100, $ 38.50 of which are set aside, the balance report says $ 138.5, and the register has a row `(none) -> assets:bank  $ 8` for an entry that only sets money aside (`C137_set_aside_is_counted_twice`, `C138_setting_aside_is_listed`).
* C141: the envelopes are filled before the program looks at whether it supports the command: `silverfox new` and `silverfox summary`, which only say that they are not supported yet, and `silverfox import` without `--csv`, write to the journal before they fail (flags.rs:74-109; `C141_failed_but_written`). And with `silverfox import` the money is divided before the statement is taken into account, so money that has already been spent according to the statement may be set aside.
* C142: the envelope report and the balance report disagree on an account as soon as a line names one of its envelopes: $ 100 of which $ 38.50 are set aside are $ 100 in one report and $ 138.50 in the other (`C142_the_reports_disagree`; the reason is that of C137).
* C143: filling the envelopes changes the balance report. An entry with lines that name envelopes is counted by `balance` as if the money had come in (posting amounts are summed whatever the line names), so each fill raises the balance of the account by what was set aside: $ 131.25 becomes $ 175.75 in the witness, although no money has moved. The exact rule says by how much, for every journal; only accounts without envelopes keep their balance.
* C145: a command that fills the envelopes reports something else than the journal it leaves. What is set aside is written with eight decimals, but the ledger in memory keeps all digits of the division (conservative funding), and the report is made from memory: three envelopes that get a third of a dollar each make the balance $ 101, and $ 100.99999999 in the next report (`C145_the_report_differs`); of the envelope report the amount available changes from $ 99 to $ 99.00000001 (`C145_the_envelope_report_differs`). The difference is proved to be at most one hundred-millionth for each line added.
* C146: where two envelopes of an account are for the same account, what is paid once is taken out of both, and the amount available rises by what was paid (`C146_paid_once_taken_twice`); money that comes back from a shop is taken out of the envelope once more, and twice as much is available (`C146_money_back_is_taken_out`, the report's view of `C35_refund_takes_money`).
* C147: `date_format` takes one word of its line, so a format with blanks (`%d. %m. %Y`) is cut off, and no date of the journal is readable (`C147_formats_with_blanks`).
* C150: A line that sets money aside in an envelope that is not declared (for example, misspelt) is accepted and has no effect at all (`C150_no_such_envelope`).
* C151: A purchase with a total behind `=` and a blank line is not undone by the opposite entry: a total counts as positive also when the amount is negative, so that the account left blank pays a second time (`C151_totals_are_not_undone`).
* C152: a journal begun anew with what the envelopes have shows as saved for the next time what was there now (the opening entry is dated after the due date), and its balance report differs, since lines that name envelopes are counted as money but payments out of envelopes are not taken off again.
* Money set aside in an envelope and taken back by an entry with the opposite amount does not leave the envelope as it was: what is set aside counts for the next time, what is taken back comes out of what there is now (`src/envelope.rs`, every negative amount is taken from now). The sum is unchanged, the division is not (C155).
* Whether a payment comes out of the envelope for the account that is paid depends on whether the entry also names an envelope (any envelope): an entry written as two of the same day, one with the payment and one with the line that names the envelope, is taken out of two envelopes (`src/envelope.rs`, `process_entry`; C157).

## 4. Trusted base

* Lean 4.33.0's kernel. No axioms were added; no `sorry`, `native_decide` or `bv_decide`. The axioms each theorem of
  the manifest depends on are listed below; concrete cases use the kernel's own evaluation (`decide`,
  `decide +kernel`).
* The reading of the Rust source as the definitions in `Verif/Model`, each of which cites its lines.
* Beliefs about libraries, not checked here: Rust `str`, `f64`, `HashMap`, `Path`; `chrono` 0.4.41; `csv` 1.3.1;
  as described in the comments of `Str`, `F64`, `Date`, `Env`, `World`, `Codec`.

Modelled: all functions of `account, amount, entry, envelope, errors, flags, importer, posting, utils, ledger/mod,
ledger/register, main` that a command can reach, except those listed next.

Not modelled:

* the texts of library errors (`io::Error`, chrono, csv, `ParseIntError`) inside error messages, `Debug` output;
* the width of the terminal, which is read and not used (only whether there is a terminal);
* `Flags::{begin_date, end_date, other_accounts}` from the command line: the code never sets them; the register is
  modelled with all its parameters;
* permissions other than `canAppend`, partial writes, other processes changing files, symbolic links, directories;
* midnight passing during a run (one `today` per command);
* encodings of CSV files (`Env.csv` is any function; `csvRecords` in `Verif/Model/Csv.lean` is the reader of the crate `csv` as remembered, used in C106 and in examples);
* memory exhaustion and stack overflow, other than by `include`.

### Axioms per theorem

* none: `C12_envelope_posting_has_none`, `C20_status_parse_iff`, `C20_status_chars`.
* `propext`: `C01_float_order_matters`, `C04_different_currencies_abort`, `C04_equal_amounts_same_currency`, `C06_rejected`, `C08_overflow`, `C12_unit_or_total`, `C20_status_refused`, `C27_one_off_partial`, `C27_starting_clause_keeps_due`, `C27_exact`, `C29_annual_two_years_apart`, `C30_named_day_is_ignored`, `C30_every_other_monday_on_saturday`, `C31_envelopes_independent`, `C37_fill_never_negative`, `C37_skipped_gets_nothing`, `C37_fill_currency`, `C42_float_second_fill_moves`, `C54_relative_include`, `C56_date_format_line`, `C56_currency_not_shown`, `C59_changed_only_if_loaded`, `C59_loading_error`, `C65_layout`, `C67_value_with_percent`, `C67_value_like_name`, `C67_empty_name`, `C68_order_varies`, `C69_otherwise`, `C71_unreadable`, `C75_flag_order_irrelevant`, `C80_errors_exit_zero`, `C80_exit_status_partial`, `C83_depth_only_aborts`, `C83_rules_depth_only_aborts`, `C88_items_of_a_text`, `C89_large_amounts_drift`, `C124_not_a_number`, `C127_help`, `C127_advice_is_refused`.
* `Quot.sound`, `propext`: `C02_one_line_per_currency`, `C02_no_duplicate_line`, `C02_line_iff_touched`, `C03_is_zero_iff_lines`, `C04_equal_currencies_work`, `C07_separator_partial`, `C07_separators_partial`, `C10_declared_before_partial`, `C12_native_value_partial`, `C14_unknown_value_refused`, `C17_blank_amount_crashes_iff`, `C17_blank_amount_no_crash_partial`, `C31_others_untouched`, `C33_withdrawal_from_now`, `C33_deposit_by_date`, `C34_moves_only_if_both`, `C45_real_is_ordinary_postings`, `C45_envelope_postings_no_effect`, `C53_loading`, `C53_envelope_report`, `C53_report_sorted`, `C56_entry_uses_last_format`, `C56_account_uses_last_format`, `C56_currency_not_used_in_loading`, `C56_currency_line_has_no_effect`, `C57_assertions_do_not_matter`, `C57_accepted_regardless`, `C57_journal_regardless`, `C57_loaded_regardless`, `C58_append_only`, `C58_no_move_changes_nothing`, `C58_no_move_command_line`, `C60_absolute_path_partial`, `C60_same_directory_partial`, `C60_relative_path_goes_elsewhere`, `C63_first_block_read`, `C64_across_fields`, `C64_patterns_partial`, `C68_postings`, `C69_completed`, `C71_failure_partial`, `C72_records`, `C78_float`, `C83_rules_cycle_aborts`, `C88_loading_reads_the_items`, `C102_line_endings`, `C102_sessions`, `C102_rules`, `C102_import`, `C104_whatever_came_before`, `C104_each_alone`, `C104_a_journal_entry_by_entry`, `C105_importing_again`, `C106_every_table_can_be_written`, `C106_every_plain_text`, `C109_declared_account`, `C111_reason_given`.
* `Classical.choice`, `Quot.sound`, `propext`: `C01_pool_reports_running_sum`, `C01_exact_net_sum`, `C01_exact_order_irrelevant`, `C03_is_zero_iff_reports_zero`, `C03_exact_is_zero_iff_net_zero`, `C05_symbol_position`, `C05_numbers`, `C06_accepted`, `C06_accepted_exact`, `C07_stray_separator`, `C08_round_trip`, `C08_round_trip_exact`, `C08_exact_decimals`, `C08_symbol_with_space`, `C08_other_decimal_symbol`, `C09_clause_order`, `C09_two_clauses`, `C09_reading`, `C10_undeclared_is_rejected_partial`, `C10_loaded_partial`, `C10_envelope_postings_unchecked`, `C11_round_trip`, `C11_printable_f64`, `C11_printable_exact`, `C11_operator_symbol`, `C12_total_cost_loses_sign`, `C13_blank_balances_partial`, `C13_ordinary_postings_balance`, `C13_envelope_postings_disturb`, `C13_off_by_the_envelopes`, `C14_blank_balances_native`, `C15_validate_iff`, `C15_accepted_entry`, `C16_unbalanced_entry_accepted`, `C16_blank_entry_balances_partial`, `C17_only_blank_posting_crashes`, `C18_fields`, `C18_header`, `C18_status_refused`, `C18_date_refused`, `C18_payee_open`, `C18_only_date_aborts`, `C18_crossed_aborts`, `C18_aborts_example`, `C19_round_trip`, `C19_conditions`, `C21_cut_at_marker`, `C21_cut_at_first_marker`, `C21_idempotent`, `C21_semicolon_comment_ignored`, `C21_slash_comment_ignored`, `C22_weekly_next`, `C22_weekly_last`, `C23_monthly_next`, `C24_biweekly_next_partial`, `C24_biweekly_skips_first`, `C25_bimonthly_next_partial`, `C25_bimonthly_returns_today`, `C26_annual_next_partial`, `C26_annual_stuck`, `C26_annual_exact`, `C26_leap_day`, `C28_next_due_never_crashes`, `C28_last_due_never_crashes_partial`, `C28_unsafe_crashes`, `C29_last_next_bracket_today_partial`, `C29_annual_exact`, `C30_every_other_weekday_partial`, `C31_named_changes_by_postings`, `C32_no_money_lost`, `C32_new_envelope`, `C34_else_untouched`, `C35_spending_partial`, `C35_refund_takes_money`, `C35_exact`, `C36_manual_no_crash_partial`, `C36_auto_no_crash_partial`, `C36_foreign_envelope_posting_crashes`, `C36_priced_posting_crashes`, `C36_manual_crashes_iff`, `C36_auto_crashes_iff`, `C37_exact_fill_never_negative`, `C38_no_overfill_partial`, `C38_overfill_is_debt`, `C38_float_no_overfill_partial`, `C38_overdrawn_overfills`, `C39_fills_within_available_partial`, `C39_available_stays_partial`, `C39_float_single_fill_partial`, `C39_overdrawn_overspends`, `C39_float_fills_partial`, `C40_equal_instalments`, `C40_just_in_time`, `C41_aggressive_is_greatest`, `C41_reachable`, `C42_ledger_second_fill`, `C42_loaded_second_fill`, `C42_second_fill_moves_nothing`, `C43_filling_never_crashes`, `C43_reachable_never_crashes`, `C44_available`, `C44_available_holds`, `C45_exact_sum`, `C45_declared_account`, `C46_unique_names_partial`, `C46_refused_iff`, `C46_expense_and_goal_share_a_name`, `C47_date_order`, `C47_loaded`, `C47_order_is_determined`, `C48_sessions`, `C48_blank_lines`, `C49_sessions_partial`, `C49_comments_partial`, `C49_envelope_header_comment`, `C50_comment_line_aborts`, `C50_comment_line_aborts_loading`, `C51_exact_rule`, `C51_sum_of_postings_partial`, `C51_exact_sum_partial`, `C51_envelope_postings_are_counted`, `C51_blank_first_posting_counts_zero`, `C51_report_never_fails`, `C52_report_is_real_partial`, `C52_same_lines_partial`, `C52_report_and_real_differ`, `C53_balance_report`, `C54_anywhere_partial`, `C54_absolute_paths_partial`, `C54_include_is_paste_partial`, `C55_redeclaring_resets`, `C55_history_is_lost`, `C56_currency_is_ignored`, `C57_any_assertion_is_read`, `C57_wrong_assertion_is_loaded`, `C60_wrong_file_extended`, `C60_one_directory_partial`, `C61_reload_partial`, `C61_reload_f64_partial`, `C61_conditions`, `C62_written_as_zero`, `C62_fill_entry`, `C63_first_block`, `C65_last_value`, `C65_read`, `C66_blocks`, `C66_root`, `C66_later`, `C66_include`, `C67_variables_partial`, `C69_balances`, `C70_loads_partial`, `C70_undeclared_account`, `C70_description`, `C71_not_atomic`, `C72_negative_skip`, `C73_listed`, `C73_date_order`, `C73_shown`, `C73_real_changes_partial`, `C73_envelope_entry`, `C74_running_total`, `C74_exact`, `C75_command_line_iff`, `C75_refused_executes_nothing`, `C76_share_of_nothing`, `C76_bar_fits`, `C76_bar_is_proportional`, `C77_layout`, `C78_flow`, `C78_exact`, `C79_report`, `C79_report_printed`, `C79_no_journal`, `C80_missing_file_exits_zero`, `C81_failing_commands_move_money`, `C81_summary_moves_money`, `C81_no_move_partial`, `C82_fill_order`, `C82_loaded_fill_order`, `C83_cycle_aborts`, `C83_two_files_abort`, `C83_two_rules_files_abort`, `C84_filling_conserves_partial`, `C84_available_not_negative_partial`, `C84_loaded_partial`, `C84_shared_name_overspends`, `C85_reports_are_printed`, `C85_bad_format_aborts`, `C86_envelope_lines`, `C86_account_lines`, `C86_report_lists_everything`, `C87_what_aborts_partial`, `C87_plain_journal_partial`, `C87_journals_that_abort`, `C89_typed_amounts_are_kept`, `C89_written_once`, `C89_rounding_error`, `C90_pool_error`, `C90_reported_balance`, `C90_whole_numbers_are_exact`, `C90_shown_to_the_last_digit`, `C90_reported_to_the_last_digit`, `C90_nothing_left`, `C91_schedules`, `C91_declaration_means_what_it_says`, `C91_headers_misread`, `C91_schedules_not_checked`, `C92_layout`, `C92_first_lines`, `C92_columns_line_up_partial`, `C92_accents_shift`, `C93_same_on_every_day_partial`, `C93_same_money_partial`, `C93_not_on_every_day`, `C94_last_due_moves_forward`, `C94_next_due_moves_forward`, `C94_money_is_only_released`, `C95_record`, `C95_column_named_twice`, `C96_goes_on_loading_partial`, `C96_goes_on_loading_f64_partial`, `C96_filling_breaks_the_journal`, `C97_exact_rule`, `C97_books_balance_partial`, `C97_blank_entries_balance`, `C97_first_posting_blank`, `C98_exact_rule`, `C98_register_ends_with_balance_partial`, `C98_first_posting_blank`, `C99_order_of_entries`, `C99_reports_partial`, `C99_envelope_lines`, `C99_order_matters_for_filling`, `C99_order_within_a_day`, `C100_exact_rule`, `C100_rule_is_exact`, `C100_short_money_partial`, `C100_soonest_due_is_last`, `C101_more_money_fills_more`, `C102_byte_order_mark`, `C103_goes_on_loading_partial`, `C103_goes_on_loading_f64_partial`, `C105_running_again_partial`, `C105_imported_twice`, `C106_what_is_written_is_read`, `C106_import_of_any_writing`, `C106_open_quote`, `C106_open_quote_imported`, `C107_report_reads_back`, `C107_report_reads_back_f64`, `C108_shown_grows_by_what_is_set_aside`, `C108_shown_never_falls`, `C108_without_envelopes_partial`, `C108_filling_changes_the_report`, `C109_written_journal_is_read`, `C110_asking_again_partial`, `C110_once_a_day_partial`, `C110_once_a_day_exact_partial`, `C110_asking_again_moves_money`, `C112_quotes_partial`, `C112_minus_left_out`, `C112_nothing_quoted`, `C113_blame`, `C114_first_mistake`, `C114_same_words`, `C115_order_of_postings`, `C115_loads_iff`, `C115_filling`, `C115_envelope_report`, `C115_envelope_report_one_currency`, `C115_balance_partial`, `C115_register_partial`, `C115_blank_line_first`, `C115_two_currencies`, `C116_from_text_to_report`, `C117_other_entries_do_not_concern_it`, `C117_the_reports_say_the_same`, `C117_the_register_is_the_same`, `C118_an_amount_is_printed_as_written`, `C118_the_report_is_exact`, `C119_statement`, `C120_the_register_is_exact`, `C120_nothing_can_be_listed`, `C121_from_text_to_envelopes`, `C122_what_filling_writes`, `C123_from_text_to_envelopes_in_doubles`, `C123_a_residue_moves_money`, `C123_a_residue_is_shown`, `C124_envelopes_by_due_date`, `C124_comparing_envelopes_never_crashes`, `C124_amounts_by_worth_partial`, `C124_amounts_by_worth_exact`, `C125_row`, `C125_other_side_partial`, `C125_several_accounts`, `C126_exact_rule`, `C126_priced_text_to_report_partial`, `C126_paid_for_in_kind`, `C127_letter_is_enough`, `C127_announced_reports_partial`, `C127_new_never_works`, `C128_exact_rule`, `C128_several_files_partial`, `C129_exact_rule`, `C129_priced_exact`, `C130_any_register`, `C130_exact_rule`, `C130_priced_register`, `C130_nothing_has_a_source`, `C131_register_and_balance_agree`, `C132_same_sums_same_report`, `C133_day_after_day`, `C134_what_filling_writes_in_doubles`, `C134_a_residue_is_written`, `C134_due_today_gets_all`, `C135_day_after_day_in_doubles`, `C135_the_file_may_say_more`, `C136_filled_to_the_last_digit`, `C137_exact_rule`, `C137_accounts_without_movements_partial`, `C137_set_aside_is_counted_twice`, `C138_exact_rule`, `C138_no_asset_set_aside_partial`, `C138_setting_aside_is_listed`, `C139_statement_beside_envelopes`, `C140_statement_in_the_register`, `C140_beside_envelopes`, `C141_every_command_fills_first`, `C141_failed_but_written`, `C142_all_the_money_is_there`, `C142_exact_rule`, `C142_the_reports_agree_partial`, `C142_the_reports_disagree`, `C143_exact_rule`, `C143_what_is_not_set_aside_partial`, `C143_filling_changes_the_balance`, `C144_register_and_balance_agree`, `C145_nearly_the_same_partial`, `C145_where_nothing_is_added_partial`, `C145_the_report_differs`, `C145_the_envelope_report_differs`, `C146_exact_rule`, `C146_out_of_the_envelope_partial`, `C146_paid_once_taken_twice`, `C146_money_back_is_taken_out`, `C147_like_any_other`, `C147_envelope_report`, `C147_filling`, `C147_formats_with_blanks`, `C147_with_import`, `C147_statement`, `C148_reports_add_up`, `C149_other_accounts`, `C150_exact_rule`, `C150_set_aside_partial`, `C150_what_comes_in`, `C150_no_such_envelope`, `C150_two_of_the_name`, `C151_undone_partial`, `C151_totals_are_not_undone`, `C152_carried_forward_partial`, `C152_closed_before_the_due_date`, `C152_now_becomes_next`, `C152_balance_is_not_carried`, `C153_paid_out_of_what_there_is_now`, `C153_set_aside_is_saved`, `C153_as_days_pass`, `C154_own_entries`, `C155_exact_rule`, `C155_taken_back_partial`, `C155_taking_back_moves_money`, `C156_names_mean_nothing`, `C156_balances_too`, `C157_written_as_two_partial`, `C157_balances_too`, `C157_split_payment_is_taken_twice`, `C158_new_envelope`.

## 5. Tests of the theorems

`seeded/LOG.jsonl` has a line per wrong program tried: the definition edited, the edit, the claim it breaks,
the theorems whose proofs failed (`failed`) or that rest on one that failed (`through`), and what was tightened.
