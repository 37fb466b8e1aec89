{
 "claims": [
  {
   "property": "C01",
   "status": "proved",
   "theorems": [
    "Props.C01_direct_tape"
   ],
   "note": ""
  },
  {
   "property": "C02",
   "status": "proved",
   "theorems": [
    "Props.C02_direct_simulator"
   ],
   "note": ""
  },
  {
   "property": "C03",
   "status": "proved",
   "theorems": [
    "Props.C03_sim_limited_exact",
    "Props.C03_first_exit"
   ],
   "note": ""
  },
  {
   "property": "C04",
   "status": "proved",
   "theorems": [
    "Props.C04_repeat_in_place_sound"
   ],
   "note": ""
  },
  {
   "property": "C05",
   "status": "partial",
   "theorems": [
    "Props.C05_nested_repeat_sound_partial",
    "Props.C05_block_size_one",
    "Props.C05_claim_false"
   ],
   "note": "The unrestricted claim is false: when the inner block machine gives up, the outer repeat check can fire wrongly (witness proved). Sound whenever the inner machine never gives up."
  },
  {
   "property": "C06",
   "status": "proved",
   "theorems": [
    "Props.C06_block_machine_exact",
    "Props.C06_block_machine_start"
   ],
   "note": ""
  },
  {
   "property": "C07",
   "status": "proved",
   "theorems": [
    "Props.C07_back_machine_exact",
    "Props.C07_back_machine_start"
   ],
   "note": ""
  },
  {
   "property": "C08",
   "status": "proved",
   "theorems": [
    "Props.C08_cache_transparent",
    "Props.C08_cache_bounded"
   ],
   "note": ""
  },
  {
   "property": "C09",
   "status": "proved",
   "theorems": [
    "Props.C09_chain_tape_faithful"
   ],
   "note": ""
  },
  {
   "property": "C10",
   "status": "proved",
   "theorems": [
    "Props.C10_simulator_exact",
    "Props.C10_seek"
   ],
   "note": ""
  },
  {
   "property": "C11",
   "status": "proved",
   "theorems": [
    "Props.C11_infinite_sound"
   ],
   "note": ""
  },
  {
   "property": "C12",
   "status": "proved",
   "theorems": [
    "Props.C12_last_seen_exact"
   ],
   "note": ""
  },
  {
   "property": "C13",
   "status": "partial",
   "theorems": [
    "Props.C13_recurring_states_partial",
    "Props.C13_claim_false"
   ],
   "note": "Exact for chain steps; for in-place repeats the reported set contains all recurring states but may contain others (witness proved)."
  },
  {
   "property": "C14",
   "status": "proved",
   "theorems": [
    "Props.C14_reverse_engineer_sound",
    "Props.C14_reverse_engineer_total"
   ],
   "note": ""
  },
  {
   "property": "C15",
   "status": "partial",
   "theorems": [
    "Props.C15_backtrack_sound_partial",
    "Props.C15_backtrack_unsound_on_first_step",
    "Props.backtrack_success"
   ],
   "note": "The unrestricted claim is false: a machine whose first transition halts can get a success verdict (witness proved). Sound for every machine whose first transition does not halt."
  },
  {
   "property": "C16",
   "status": "proved",
   "theorems": [
    "Props.C16_backtrack_halted"
   ],
   "note": ""
  },
  {
   "property": "C17",
   "status": "proved",
   "theorems": [
    "Props.C17_lin_recur_sound",
    "Props.C17_lin_recur_halting",
    "Props.C17_lin_recur_other",
    "Props.C17_lin_recur_ends"
   ],
   "note": ""
  },
  {
   "property": "C18",
   "status": "proved",
   "theorems": [
    "Props.C18_minimal_start",
    "Props.C18_check_recur"
   ],
   "note": ""
  },
  {
   "property": "C19",
   "status": "proved",
   "theorems": [
    "Props.C19_quasihalt"
   ],
   "note": ""
  },
  {
   "property": "C20",
   "status": "proved",
   "theorems": [
    "Props.C20_cps_sound",
    "Props.C20_cps_filter_sound"
   ],
   "note": ""
  },
  {
   "property": "C21",
   "status": "proved",
   "theorems": [
    "Props.C21_ctl1_sound"
   ],
   "note": ""
  },
  {
   "property": "C22",
   "status": "proved",
   "theorems": [
    "Props.C22_ctl2_sound"
   ],
   "note": ""
  },
  {
   "property": "C23",
   "status": "proved",
   "theorems": [
    "Props.C23_ctl3_sound"
   ],
   "note": ""
  },
  {
   "property": "C24",
   "status": "partial",
   "theorems": [
    "Props.C24_ctl4_sound_partial",
    "Props.C24_claim_false"
   ],
   "note": "The initial sets miss symbols when a side has three or more runs and the outermost is longer than 2 (CTL4.py line 117 indexes -2 instead of 1); a halting machine is then claimed infinite (witness proved). Sound otherwise."
  },
  {
   "property": "C25",
   "status": "partial",
   "theorems": [
    "Props.C25_pack_layout",
    "Props.C25_unpack_pack_partial",
    "Props.C25_reject",
    "Props.C25_unpack_sane",
    "Props.C25_stay_is_lost"
   ],
   "note": "Proved for machines whose every move is left or right; a machine with another direction value (possible through the list format and Morphett reader) packs without error to bytes that unpack to a different machine (witness proved)."
  },
  {
   "property": "C26",
   "status": "partial",
   "theorems": [
    "Props.C26_message_roundtrip_partial",
    "Props.C26_message_writable",
    "Props.C26_list_contents",
    "Props.C26_list_read_is_constant",
    "Props.C26_large_machine_lost",
    "Props.C26_eight_symbols"
   ],
   "note": "The unrestricted claim is false: machines in the list format are written correctly but every such message reads back as a machine without defined transitions, and seven-state eight-symbol machines that write symbol 7 cannot be written (witnesses proved)."
  },
  {
   "property": "C27",
   "status": "proved",
   "theorems": [
    "Props.C27_print",
    "Props.C27_parse_print",
    "Props.C27_print_parse",
    "Props.C27_outside",
    "Props.C27_parse_sane"
   ],
   "note": ""
  },
  {
   "property": "C28",
   "status": "partial",
   "theorems": [
    "Props.C28_text_file_partial",
    "Props.C28_later_records_lost"
   ],
   "note": "Proved for records of machines with fewer than 25 states and 10 symbols (the bounds of the text format); a larger machine is written as an empty line, at which reading stops, so all later records are lost (witness proved)."
  },
  {
   "property": "C29",
   "status": "proved",
   "theorems": [
    "Props.C29_truncated",
    "Props.C29_complete",
    "Props.C29_load",
    "Props.C29_skip_read",
    "Props.C29_writable",
    "Props.C29_skip_truncated"
   ],
   "note": ""
  },
  {
   "property": "C30",
   "status": "partial",
   "theorems": [
    "Props.C30_decode_partial",
    "Props.C30_address",
    "Props.C30_iterate",
    "Props.C30_halt_writing_zero",
    "Props.C30_skip_flag",
    "Props.C30_index_file"
   ],
   "note": "Proved for machines without a halting transition that writes 0; one that writes 0 and moves left is read as an undefined transition although its code differs (witness proved)."
  },
  {
   "property": "C31",
   "status": "proved",
   "theorems": [
    "Props.C31_bigint_roundtrip",
    "Props.C31_small_plain",
    "Props.C31_expint_roundtrip",
    "Props.C31_refused",
    "Props.C31_reads"
   ],
   "note": ""
  },
  {
   "property": "C32",
   "status": "partial",
   "theorems": [
    "Props.C32_coherent_partial",
    "Props.C32_halting",
    "Props.C32_infinite",
    "Props.C32_halting_defaults",
    "Props.C32_recurrence",
    "Props.C32_recurrence_not_infinite",
    "Props.C32_halting_and_quasihalting",
    "Props.C32_undecided_quasihalting"
   ],
   "note": "Proved for every sequence of updates that reports no recurrence for a machine already marked halting; other sequences mark a machine halting and quasihalting, and a recurrence report does not set the infinite flag (witnesses proved)."
  },
  {
   "property": "C33",
   "status": "proved",
   "theorems": [
    "Props.C33_children",
    "Props.C33_no_children",
    "Props.C33_fill"
   ],
   "note": ""
  },
  {
   "property": "C34",
   "status": "proved",
   "theorems": [
    "Props.C34_complete",
    "Props.C34_complete_1rb",
    "Props.C34_halting_times"
   ],
   "note": ""
  },
  {
   "property": "C35",
   "status": "proved",
   "theorems": [
    "Props.C35_discipline",
    "Props.C35_conservation",
    "Props.C35_fifo_order",
    "Props.C35_stats",
    "Props.C35_stats_new"
   ],
   "note": ""
  },
  {
   "property": "C36",
   "status": "proved",
   "theorems": [
    "Props.C36_conservation",
    "Props.C36_statistics",
    "Props.C36_terminates",
    "Props.C36_kids",
    "Props.C36_eight_states"
   ],
   "note": "For machines with more than 7 states or symbols the enumerator may stop with an exception (C36_eight_states); everything it wrote before is as claimed."
  },
  {
   "property": "C37",
   "status": "partial",
   "theorems": [
    "Props.C37_resume_partial",
    "Props.C37_option_lost",
    "Props.C37_cleared",
    "Props.C37_rerun"
   ],
   "note": "Proved for runs without the option that allows machines without a halting transition, when the run is resumed from the machines that were not run; both restrictions are needed (witnesses proved)."
  },
  {
   "property": "C38",
   "status": "proved",
   "theorems": [
    "Props.C38_conservation",
    "Props.C38_quit",
    "Props.C38_worker_ends",
    "Props.C38_no_deadlock"
   ],
   "note": "Messages of one worker are delivered in order. No deadlock unless a process crashes (C39)."
  },
  {
   "property": "C39",
   "status": "partial",
   "theorems": [
    "Props.C39_no_update_partial",
    "Props.C39_crash",
    "Props.C39_worker_crash_reachable",
    "Props.C39_master_crash",
    "Props.C39_master_crash_reachable"
   ],
   "note": "False in general: float slice indexes (exact condition and reachable witnesses proved, for workers and for the master). Proved for workers that have not received a new queue size."
  },
  {
   "property": "C40",
   "status": "partial",
   "theorems": [
    "Props.C40_permute",
    "Props.C40_run",
    "Props.C40_score_partial",
    "Props.C40_score_changes"
   ],
   "note": "Runs, halting and step counts proved in full. Scores only if the halting transition writes a non-blank: permute_table rewrites halting transitions to \"write 1, move right\", which changes the score otherwise (C40_score_changes)."
  },
  {
   "property": "C41",
   "status": "partial",
   "theorems": [
    "Props.C41_total",
    "Props.C41_isomorphic",
    "Props.C41_halting",
    "Props.C41_tree_normal",
    "Props.C41_canonical_partial",
    "Props.C41_idempotent_partial",
    "Props.C41_not_idempotent",
    "Props.C41_start_states"
   ],
   "note": "Isomorphism, halting behaviour and tree normal form of the result proved in full, and the listing of all start states. Converting twice gives the same result unless the machine halts within the step limit; C41_not_idempotent is a counterexample for halting machines."
  },
  {
   "property": "C42",
   "status": "partial",
   "theorems": [
    "Props.C42_minimal",
    "Props.C42_considered",
    "Props.C42_halting",
    "Props.C42_canonical_partial",
    "Props.C42_not_canonical",
    "Props.C42_not_idempotent"
   ],
   "note": "Minimality and membership proved in full. Canonicity is violated (the direction is chosen by the transition on symbol 0 instead of the first symbol of the order); proved for renamings that keep the blank, of machines whose blank transitions are running and whose halting transitions are standard."
  },
  {
   "property": "C43",
   "status": "partial",
   "theorems": [
    "Props.C43_gcd",
    "Props.C43_lcm",
    "Props.C43_lcm_edge",
    "Props.C43_int_pow_value",
    "Props.C43_int_pow_least",
    "Props.C43_prime_factor",
    "Props.C43_prime_factor_domain",
    "Props.C43_prime_factor_refuses",
    "Props.C43_carmichael_partial",
    "Props.C43_exp_mod_partial",
    "Props.C43_exp_mod_sound"
   ],
   "note": "gcd, lcm, int_pow (the least root given accurate floats) and factorisation proved in full. Carmichael and modular power: every answer is right, and there is an answer iff the modulus factors over the primes below 100; larger primes are refused by an exception (C43_prime_factor_refuses)."
  },
  {
   "property": "C44",
   "status": "proved",
   "theorems": [
    "Props.C44_ops",
    "Props.C44_var",
    "Props.C44_substitute",
    "Props.C44_eq_sound",
    "Props.C44_eq_exact",
    "Props.C44_var_plus_const",
    "Props.C44_var_plus_const_complete",
    "Props.C44_normal",
    "Props.C44_div"
   ],
   "note": "Evaluation is a homomorphism, normal form is kept, equality is decided exactly on normal forms."
  },
  {
   "property": "C45",
   "status": "proved",
   "theorems": [
    "Props.C45_min_val",
    "Props.C45_min_val_attained",
    "Props.C45_always"
   ],
   "note": ""
  },
  {
   "property": "C46",
   "status": "partial",
   "theorems": [
    "Props.C46_series_partial",
    "Props.C46_const",
    "Props.C46_wrong_cubic",
    "Props.C46_wrong_fraction",
    "Props.C46_refuses"
   ],
   "note": "Violated: for powers above 2 a wrong polynomial is used silently (C46_wrong_cubic), and a fractional coefficient is floored (C46_wrong_fraction). Exact for integer polynomials of degree at most 2 in the counter."
  },
  {
   "property": "C47",
   "status": "partial",
   "theorems": [
    "Props.C47_add_partial",
    "Props.C47_mul_partial",
    "Props.C47_sub_partial",
    "Props.C47_exp_int_partial",
    "Props.C47_div_partial",
    "Props.C47_mod_partial",
    "Props.C47_mod_mild_partial",
    "Props.C47_mod_false",
    "Props.C47_divmod_partial",
    "Props.C47_eval",
    "Props.C47_normalize_partial",
    "Props.C47_div_negative_raises",
    "Props.C47_bases_raise",
    "Props.C47_mod_raises"
   ],
   "note": "Every returned result is exact, for every nesting depth of exponents, except remainders: they are exact if the comparisons of exponents with small numbers are right (C47_mod_partial), which holds for mild exponents whatever the logarithms (C47_mod_mild_partial) but not for all (C47_mod_false: 2^(2^1000 - (2^1000 - 1)) % 4 gives 0 instead of 2). Not total: different bases, negative divisors, moduli with a prime factor above 97 raise (witnesses given). Symbolic exponents: C78."
  },
  {
   "property": "C48",
   "status": "proved",
   "theorems": [
    "Props.C48_rule_sound",
    "Props.C48_all_rules_sound"
   ],
   "note": "Without recursion, for all four machine stacks; both difference rules and general rules: final tape, step count and last visits as functions of all run lengths at or above the minima; every rule held in a run."
  },
  {
   "property": "C49",
   "status": "proved",
   "theorems": [
    "Props.C49_apply_exact",
    "Props.C49_run_refines",
    "Props.C49_run_exact",
    "Props.C49_run_progress",
    "Props.C49_run_last_seen"
   ],
   "note": "One application, and whole runs of the simulator with proof system: refinement of the simulator without it, exact configuration, score and last visits, no exception (max_num_reps nonzero)."
  },
  {
   "property": "C50",
   "status": "proved",
   "theorems": [
    "Props.C50_apply_infinite",
    "Props.C50_run_infinite"
   ],
   "note": "The machine never halts and the reported states are exactly those visited infinitely often."
  },
  {
   "property": "C51",
   "status": "partial",
   "theorems": [
    "Props.C51_morphett_roundtrip_partial",
    "Props.C51_morphett_exact",
    "Props.C51_symbols_renamed",
    "Props.C51_undefined_row",
    "Props.C51_unused_state_lost",
    "Props.C51_old_text",
    "Props.C51_line"
   ],
   "note": "Round trip proved for machines whose states and symbols first appear in order; other machines come back renamed, unreadable or smaller (witnesses proved)."
  },
  {
   "property": "C52",
   "status": "proved",
   "theorems": [
    "Props.C52_zero_reflexive",
    "Props.C52_zero_reflexive_defined",
    "Props.C52_zero_reflexive_main",
    "Props.C52_adjacent",
    "Props.C52_write_adjacent",
    "Props.C52_count",
    "Props.C52_count_tree",
    "Props.C52_count_root",
    "Props.C52_count_total"
   ],
   "note": "Exact membership, no duplicates and number of adjacent machines; the zero-reflexive test is \"possibly reflexive\" (an undefined blank cell counts as yes) and the program fails after an empty input; count = cardinality of the set of represented machines, for every machine of the 1RB tree, and the counts of all records of a run add up to the closed formula."
  },
  {
   "property": "C53",
   "status": "proved",
   "theorems": [
    "Props.C53_category",
    "Props.C53_one_category",
    "Props.C53_categorize",
    "Props.C53_categorize_ok",
    "Props.C53_sort",
    "Props.C53_sort_raises",
    "Props.C53_sample",
    "Props.C53_sample_all",
    "Props.C53_scanned_false",
    "Props.C53_sample_uniform",
    "Props.C53_sample_order"
   ],
   "note": "Categorising: each record read is in exactly one output file, the one whose name describes it; counters right; exceptions exactly for damaged files and unreadable numbers. The category of infinite machines includes those whose quasihalting is undecided. Sorting: stable, descending, a permutation. Sampling: sub-multiset of the input of the requested size for every source of randomness that keeps its contract, and exactly uniform for ideal randomness. The number printed as scanned is one too large (C53_scanned_false)."
  },
  {
   "property": "C54",
   "status": "partial",
   "theorems": [
    "Props.C54_no_failed_write",
    "Props.C54_verdict_partial",
    "Props.C54_score",
    "Props.C54_steps_partial",
    "Props.C54_quasi_partial",
    "Props.C54_quasi_last",
    "Props.C54_raises",
    "Props.C54_interrupt_partial",
    "Props.C54_ends",
    "Props.C54_claim_false",
    "Props.C54_limits_false",
    "Props.C54_no_steps_false",
    "Props.C54_interrupt_claim_false",
    "Props.C54_quasi_false",
    "Props.C54_loop_limit"
   ],
   "note": "Verdicts, scores, step counts and quasihalting data of the whole pipeline are right, whatever its options and however it ends, with exactly these exceptions, each proved to be a real one by a counterexample: an infinite verdict from an in-place repeat over blocks that gave up (C54_limits_false: a 16-state 10-symbol machine that halts at step 10132 is marked infinite with --block-size=5 and otherwise default options), step counts with --no-steps (reported as 0), quasihalting data after an in-place repeat, and an alarm between two assignments."
  },
  {
   "property": "C55",
   "status": "partial",
   "theorems": [
    "Props.C55_linear",
    "Props.C55_max_reps",
    "Props.C55_mult_partial",
    "Props.C55_mult_raises",
    "Props.C55_mult_min",
    "Props.C55_pow_min_partial"
   ],
   "note": "Iterated application is exact for every kind with integer values; a multiplier of 1 raises (C55_mult_raises); the Pow minimum needs exact logarithms."
  },
  {
   "property": "C56",
   "status": "partial",
   "theorems": [
    "Props.C56_search",
    "Props.C56_best_compression",
    "Props.C56_simulation_exact",
    "Props.C56_infinite_partial"
   ],
   "note": "The search always ends with a positive block size (no exception, also without a limit on the size), and with that size all simulators are exact about running and halting. Infinite verdicts over the back-symbol machine on top of the block machine are right unless an in-place repeat was seen after the block machine gave up, where the claim is false (C05)."
  },
  {
   "property": "C57",
   "status": "partial",
   "theorems": [
    "Props.C57_false_halt",
    "Props.C57_false_steps",
    "Props.C57_recursive_right_partial",
    "Props.C57_infinite_partial",
    "Props.C57_kept_right",
    "Props.C57_kept_infinite",
    "Props.C57_agree_partial",
    "Props.C57_plain_agree",
    "Props.C57_kept_running",
    "Props.C57_exact_sums",
    "Props.C57_sums_right",
    "Props.C57_repaired_right",
    "Props.C57_agree_steps_partial",
    "Props.C57_plain_steps",
    "Props.C57_sum_accepts",
    "Props.C57_kept_exceptions",
    "Props.C57_exceptions_partial",
    "Props.C57_exception_limit"
   ],
   "note": "The claim is false, shown by two machines: one that never halts is reported as halted after 12 659 steps (the minima of general rules are relaxed although rules were used in their proof), and one that halts after 32 653 steps is reported with 32 628 (cubic sums with fractional coefficients, C46). Proved: as long as no general rule was proved with the help of rules, everything else is right (configuration, score, halting, cell, infinite verdicts and recurring states), difference rules proved with rules included. Proved for all rules: the same program with the minima of general rules proved with rules kept at the exponents of the proof is right for every machine, stack and number of loops (C57_kept_right, C57_kept_infinite), so every report of the code that the lowered minima have not changed is right (C57_agree_partial), which includes all runs without such rules (C57_plain_agree). Proved for step counts: with exact sums as well (`repaired`) every report is right, number of steps included (C57_repaired_right; C57_sums_right for any right way to sum), so every report of the code that neither fault has changed is right, number of steps included (C57_agree_steps_partial). Exceptions: only a sum refused by series_sum (fourth and higher powers) can raise one, or --max-num-reps=0, with the minima kept (C57_kept_exceptions), and in the code as long as no general rule was proved with the help of rules (C57_exceptions_partial)."
  },
  {
   "property": "C58",
   "status": "partial",
   "theorems": [
    "Props.C58_same_machines",
    "Props.C58_reverse_engineer",
    "Props.C58_reverse_engineer_marks",
    "Props.C58_ctl_partial",
    "Props.C58_ctl_marks",
    "Props.C58_ctl_search",
    "Props.C58_cps",
    "Props.C58_cps_marks",
    "Props.C58_backtrack_partial",
    "Props.C58_backtrack_raises",
    "Props.C58_quasihalting_forgotten",
    "Props.C58_cps_forgets",
    "Props.C58_ctl4_false"
   ],
   "note": "Proved in full for the reverse engineering filter and CTL1 to CTL3 except that they forget what is known about quasihalting (C58_quasihalting_forgotten). CPS_Filter writes only right statuses but forgets all earlier verdicts (C58_cps_forgets); CTL4 makes files wrong (C58_ctl4_false, by C24). Backtracking_Filter stops at the first record of every file, because IO.parse_ttable does not exist (C58_backtrack_raises); what it would do otherwise is right except for machines that halt in their first step (C15)."
  },
  {
   "property": "C59",
   "status": "partial",
   "theorems": [
    "Props.C59_order",
    "Props.C59_consistent",
    "Props.C59_small",
    "Props.C59_sign_partial",
    "Props.C59_mild_partial",
    "Props.C59_powers_partial",
    "Props.C59_towers",
    "Props.C59_sign_false",
    "Props.C59_sign_false_logs",
    "Props.C59_order_false"
   ],
   "note": "False as stated, with witnesses: constants never count against a term that is too large to evaluate (2^1000 - 10^400 is 'positive'), denominators hardly, and of terms of one sign only the largest counts. Right for numbers that can be evaluated, for signs of sums without opposite signs, for mild numbers against integers below 2^64, and for single powers up to the error of the logarithms; always a consistent order."
  },
  {
   "property": "C60",
   "status": "proved",
   "theorems": [
    "Props.C60_rule_sound",
    "Props.C60_apply_exact",
    "Props.C60_run_exact",
    "Props.C60_run_progress",
    "Props.C60_run_last_seen",
    "Props.C60_run_infinite",
    "Props.C60_run_infinite_macro"
   ],
   "note": "The trying order of the candidate rules is a parameter of the model; the theorems hold for every order. Verdicts of the layered macro machine are covered under the same hypothesis as C11."
  },
  {
   "property": "C61",
   "status": "partial",
   "theorems": [
    "Props.C61_sound_partial",
    "Props.C61_strict_same",
    "Props.C61_plain_sound",
    "Props.C61_release_same",
    "Props.C61_fuel",
    "Props.C61_halts",
    "Props.C61_capture_false",
    "Props.C61_rename_false",
    "Props.C61_release_false",
    "Props.C61_admit_false",
    "Props.C61_diverges"
   ],
   "note": "The full statement is false of the code: variables can be captured when a substitution goes below a function (C61_capture_false) or when functions are compared (C61_rename_false), a release build wraps around at 2^64 (C61_release_false), Admit ends a proof (C61_admit_false), and the comparison of tapes need not end (C61_diverges). Proved: acceptance without a capture, an overflow or Admit implies truth; rule sets without functions need no check for captures."
  },
  {
   "property": "C62",
   "status": "partial",
   "theorems": [
    "Props.C62_tm_roundtrip",
    "Props.C62_tm_exact",
    "Props.C62_count_value",
    "Props.C62_count_roundtrip",
    "Props.C62_config_roundtrip",
    "Props.C62_function_unreadable",
    "Props.C62_rest_ignored",
    "Props.C62_minus_false",
    "Props.C62_front_ignored",
    "Props.C62_difference_false",
    "Props.C62_state_false",
    "Props.C62_symbol_false"
   ],
   "note": "False of the code: the regular expression for a term anchors only one end of each alternative, so n-1 is read as n and 10-3 as 3 (C62_rest_ignored, C62_front_ignored); state 25 is printed as the halting state, the symbol 10 as two symbols; functions are printed but cannot be read. Proved: round trips for symbols up to 9, states up to 24 and counts without functions; exactness for machines; the value of every well-formed sum."
  },
  {
   "property": "C63",
   "status": "proved",
   "theorems": [
    "Props.C63_lazy_beaver",
    "Props.C63_inconclusive",
    "Props.C63_steps_exact",
    "Props.C63_witness",
    "Props.C63_nonhalt",
    "Props.C63_ends",
    "Props.C63_parallel",
    "Props.C63_parallel_ends",
    "Props.C63_one_state",
    "Props.C63_one_symbol",
    "Props.C63_too_large",
    "Props.C63_example"
   ],
   "note": "Integers are unbounded in the model. Outside of the range of sizes: with one state or one symbol the program reads outside of its arrays (C63_one_state, C63_one_symbol), with 26 states it stops (C63_too_large)."
  },
  {
   "property": "C64",
   "status": "proved",
   "theorems": [
    "Props.C64_ends",
    "Props.C64_recur_sound",
    "Props.C64_halting",
    "Props.C64_unknown",
    "Props.C64_finds_halting",
    "Props.C64_finds_recurrence",
    "Props.C64_limit_one"
   ],
   "note": "With a limit of at most one step nothing is reported although a step is made, and one field of the answer has no value (C64_limit_one). Integers are unbounded in the model."
  },
  {
   "property": "C65",
   "status": "proved",
   "theorems": [
    "Props.C65_halt_sound",
    "Props.C65_inf_sound",
    "Props.C65_unknown_sound",
    "Props.C65_counts",
    "Props.C65_ends",
    "Props.C65_complete",
    "Props.C65_all_halting",
    "Props.C65_only_unknown",
    "Props.C65_parallel_sound",
    "Props.C65_parallel_complete",
    "Props.C65_parallel_only",
    "Props.C65_parallel_ends",
    "Props.C65_example"
   ],
   "note": "Machines whose first transition writes the blank or stays in the initial state are not looked at by the program (`first_1rb`). `only_unknown` has no value in builds without Boost; C65_only_unknown and C65_parallel_only hold for both values. Integers are unbounded in the model."
  },
  {
   "property": "C66",
   "status": "partial",
   "theorems": [
    "Props.C66_minima",
    "Props.C66_fails",
    "Props.C66_infinite",
    "Props.C66_applied",
    "Props.C66_raises_partial",
    "Props.C66_raises",
    "Props.C66_same_as_general",
    "Props.C66_example"
   ],
   "note": "All parts are proved except that no exception is raised, which is false: at a fixed point of x -> m x + c, which the minimum computed by the code allows, an assertion fails (C66_raises); it fails in no other case (C66_raises_partial). Exponents are numbers: linear rules used inside proofs (--exp-meta-linear-rules) are not modelled. Blocks of exponent 0 are removed only without the option; by inspection (not proved) the minima that prove_rule computes exclude them."
  },
  {
   "property": "C67",
   "status": "partial",
   "theorems": [
    "Props.C67_readers_agree",
    "Props.C67_writers_agree",
    "Props.C67_files_agree",
    "Props.C67_direct_sim",
    "Props.C67_line_missing",
    "Props.C67_lin_recur",
    "Props.C67_sim_all",
    "Props.C67_sim_all_again",
    "Props.C67_lr_enum_python",
    "Props.C67_halt_letter_false",
    "Props.C67_remark_false",
    "Props.C67_dash_false",
    "Props.C67_blank_line_false",
    "Props.C67_example"
   ],
   "note": "Proved for standard text. False for other text that some of the programs accept: a halt state written H is halting for Python and the eighth state for C++ and Rust, where C++ then leaves its table (C67_halt_letter_false); a remark after a comma, bar or hash sign is skipped by C++ only (C67_remark_false); a short dash is read by C++ only (C67_dash_false); a blank line silently ends the file for Python (C67_blank_line_false). Past the end of the file direct_sim and lin_recur use a null pointer (C67_line_missing). A Python record cannot hold the symbol 7 of a machine with at most 7 states and 8 symbols (C25), hence the condition Packable."
  },
  {
   "property": "C68",
   "status": "partial",
   "theorems": [
    "Props.C68_report_partial",
    "Props.C68_verdict_partial",
    "Props.C68_finds_halt_partial",
    "Props.C68_limit",
    "Props.C68_raises_only",
    "Props.C68_freeze_without_prover",
    "Props.C68_print_zero",
    "Props.C68_frozen",
    "Props.C68_no_prover",
    "Props.C68_limits_false"
   ],
   "note": "The verdict 'infinite' with reason MACRO_STEP is proved for runs without back symbols or in which no block gives up; without this it is false (C68_limits_false: a machine that halts after 10 132 steps, with --block-size=5 and --max-steps-in-block=10000). Quasihalting is proved for the other reasons only (false for MACRO_STEP, C54_quasi_false). A run with output does more loops than --max-loops unless that is a multiple of --print-loops (example); with --print-loops=0 it never ends (C68_print_zero); --freeze-prover with --no-prover raises (C68_freeze_without_prover). Options for recursive rules and --start-state are not modelled."
  },
  {
   "property": "C69",
   "status": "proved",
   "theorems": [
    "Props.C69_finds_halting",
    "Props.C69_finds_recurrence",
    "Props.C69_unlimited_ends",
    "Props.C69_least_period",
    "Props.C69_verdict_stands",
    "Props.C69_raises_iff",
    "Props.C69_agrees_cpp"
   ],
   "note": "The number of rounds the caller waits for is a parameter, so that running without a limit can be spoken of. With the limit of one step the Python program always raises (C69_raises_iff) while the C++ one gives up."
  },
  {
   "property": "C70",
   "status": "proved",
   "theorems": [
    "Props.C70_count",
    "Props.C70_count_truncated",
    "Props.C70_find",
    "Props.C70_find_truncated",
    "Props.C70_find_agree",
    "Props.C70_find_text",
    "Props.C70_literal",
    "Props.C70_by_number",
    "Props.C70_other_text",
    "Props.C70_large",
    "Props.C70_overcount",
    "Props.C70_find_error"
   ],
   "note": "Witnesses for the limits: another text of the same machine is found by one tool only (C70_other_text); Find_Record raises for machines with eight states (C70_large); a cut inside the data of a record is counted as a record (C70_overcount)."
  },
  {
   "property": "C71",
   "status": "proved",
   "theorems": [
    "Props.C71_report",
    "Props.C71_sums",
    "Props.C71_order",
    "Props.C71_cut",
    "Props.C71_fails",
    "Props.C71_freq",
    "Props.C71_min_of_nothing",
    "Props.C71_freq_fails"
   ],
   "note": "C71_fails says exactly when there is no report; C71_min_of_nothing is a file of readable records on which the program fails. Timings and message sizes are not modelled; comparisons of huge numbers are taken to compare values."
  },
  {
   "property": "C72",
   "status": "proved",
   "theorems": [
    "Props.C72_detect",
    "Props.C72_guess",
    "Props.C72_to_text",
    "Props.C72_to_proto",
    "Props.C72_proto_machine",
    "Props.C72_proto_copy",
    "Props.C72_text_input",
    "Props.C72_bbc_input",
    "Props.C72_to_morphett",
    "Props.C72_others",
    "Props.C72_count",
    "Props.C72_overwrites",
    "Props.C72_refused",
    "Props.C72_unreadable",
    "Props.C72_gz_text_output",
    "Props.C72_gz_text_input",
    "Props.C72_in_place",
    "Props.C72_morphett_one",
    "Props.ConvertDemo.C72_morphett_merges",
    "Props.C72_old_halt",
    "Props.C72_old_reason",
    "Props.C72_old_large",
    "Props.C72_old_formula"
   ],
   "note": "The text encoding, gzip, zip and protobuf libraries are parameters with the laws `Lib.Laws` (round trips); ConvertDemo gives a library that satisfies them. Machines with more than 7 states or 8 symbols are not read correctly from binary files (C26)."
  },
  {
   "property": "C73",
   "status": "partial",
   "theorems": [
    "Props.C73_shape",
    "Props.C73_minima",
    "Props.C73_fails",
    "Props.C73_infinite_partial",
    "Props.C73_never_halts_partial",
    "Props.C73_applied",
    "Props.C73_answers_partial",
    "Props.C73_infinite_example",
    "Props.C73_float",
    "Props.C73_rounding",
    "Props.C73_refused"
   ],
   "note": "Infinite verdict proved under the assumption that the floating point logarithm is right at the minimum and that the proved rule has integer results; C73_rounding shows that the assumption is needed (3^x + 30 - 3^31 at 31, with the value math.log returns), C73_float that a power with exponent 0 leaves a float on the tape."
  },
  {
   "property": "C74",
   "status": "partial",
   "theorems": [
    "Props.C74_filter",
    "Props.C74_size",
    "Props.C74_filter_ok",
    "Props.C74_text",
    "Props.C74_conserved",
    "Props.C74_no_machine_lost",
    "Props.C74_undecided",
    "Props.C74_cluster_ok",
    "Props.C74_cluster_partial",
    "Props.C74_cluster_count_partial",
    "Props.C74_count_zero",
    "Props.C74_same_directory_false",
    "Props.C74_repeat_false",
    "Props.C74_unknown_steps_false",
    "Props.C74_dropped_false"
   ],
   "note": "The unrestricted claim is false of the scripts; C74_*_false are witnesses. Conservation is proved for different directories and, for the cluster, up to the records of halt.unk.pb and qhalt.unk.pb."
  },
  {
   "property": "C75",
   "status": "proved",
   "theorems": [
    "Props.C75_normal_form",
    "Props.C75_built",
    "Props.C75_built_normal",
    "Props.C75_powers",
    "Props.C75_rebuild",
    "Props.C75_reads",
    "Props.C75_stored_iff",
    "Props.C75_stored",
    "Props.C75_roundtrip",
    "Props.C75_read_normal"
   ],
   "note": "Assumes that sorting by the approximate exponents permutes the terms and that int_pow does not miss powers (C75_powers: accurate floats); pickling of exponents is a pair of functions with loads(dumps x) = x."
  },
  {
   "property": "C76",
   "status": "partial",
   "theorems": [
    "Props.C76_roundtrip",
    "Props.C76_print_inj",
    "Props.C76_fraction_refused",
    "Props.C76_fraction_hidden",
    "Props.C76_sum_read",
    "Props.C76_sum_refused",
    "Props.C76_sum_lost",
    "Props.C76_sum_double",
    "Props.C76_minus_signs_false",
    "Props.C76_minus_refused_false",
    "Props.C76_power_false",
    "Props.C76_constant_first_false",
    "Props.C76_no_variables_false"
   ],
   "note": "Printing and reading back is proved without limits for terms with variables; reading of hand-written texts is classified completely for the grammar of Spec/ExprText (the unrestricted claim is false of the code, witnesses proved)."
  },
  {
   "property": "C77",
   "status": "proved",
   "theorems": [
    "Props.C77_one_value",
    "Props.C77_str",
    "Props.C77_tex",
    "Props.C77_str_inj",
    "Props.C77_tex_inj",
    "Props.C77_operations"
   ],
   "note": "For constant numbers; the limit of 20000 digits on the text of an int (Common.py) is not modelled."
  },
  {
   "property": "C78",
   "status": "proved",
   "theorems": [
    "Props.C78_exp_int",
    "Props.C78_operations",
    "Props.C78_div",
    "Props.C78_built",
    "Props.C78_min",
    "Props.C78_variables",
    "Props.C78_substitute",
    "Props.C78_substitute_expr",
    "Props.C78_exponents",
    "Props.C78_variable_refused",
    "Props.C78_refused",
    "Props.C78_substitute_float",
    "Props.C78_power_refused",
    "Props.C78_sign_matters"
   ],
   "note": "For results that are returned. Expressions that themselves contain ExpInts as coefficients are not modelled; where a negative exponent would lead into floating point the model stops."
  },
  {
   "property": "C79",
   "status": "proved",
   "theorems": [
    "Props.C79_venn_ok",
    "Props.C79_venn",
    "Props.C79_venn_lines",
    "Props.C79_venn_repeated",
    "Props.C79_venn_last",
    "Props.C79_chunks",
    "Props.C79_split",
    "Props.C79_split_none",
    "Props.C79_split_glued",
    "Props.C79_lr_parallel",
    "Props.C79_lb_parallel",
    "Props.C79_sample",
    "Props.C79_sample_size"
   ],
   "note": "What is assumed of floating point numbers is FloatRounding in Spec/LineTools.lean. Files without carriage returns."
  },
  {
   "property": "C80",
   "status": "partial",
   "theorems": [
    "Props.C80_start",
    "Props.C80_no_head",
    "Props.C80_fits",
    "Props.C80_visual",
    "Props.C80_visual_blank",
    "Props.C80_legible",
    "Props.C80_width",
    "Props.C80_curses_screen",
    "Props.C80_curses_keys",
    "Props.C80_curses_ends",
    "Props.C80_curses_no_error",
    "Props.C80_curses_hangs",
    "Props.C80_curses_corner"
   ],
   "note": "Visual_Simulator.py completely; Curses_Sim.py: shown correctly whenever the keys are answered, but it hangs after halting (C80_curses_hangs) and fails at the corner of the pad (C80_curses_corner)."
  },
  {
   "property": "C81",
   "status": "partial",
   "theorems": [
    "Props.C81_markdown",
    "Props.C81_box",
    "Props.C81_box_aligned",
    "Props.C81_markdown_determines",
    "Props.C81_box_determines",
    "Props.C81_z_false",
    "Props.C81_markdown_fails",
    "Props.C81_box_fails",
    "Props.C81_sheet",
    "Props.C81_sheet_morphett_partial",
    "Props.C81_direction_false",
    "Props.C81_marxen",
    "Props.C81_marxen_hangs",
    "Props.C81_marxen_h_false",
    "Props.C81_marxen_two_false"
   ],
   "note": "Printed tables completely (with the limit of C81_z_false); for sheets, C81_sheet_morphett_partial asks that every state has a transition, some transition reads 1 and the names are possible in a Morphett file (C51); Marxen2 files as produced with one machine."
  },
  {
   "property": "C82",
   "status": "partial",
   "theorems": [
    "Props.C82_rule_kept",
    "Props.C82_kept_right",
    "Props.C82_agree_partial",
    "Props.C82_kept_infinite",
    "Props.C82_false_halt",
    "Props.C82_code"
   ],
   "note": "The unrestricted claim is false (C82_false_halt). Proved for all runs with the minima kept and empty blocks removed (C82_kept_right, C82_kept_infinite) and for all runs of the code that agree with such a run (C82_agree_partial). Proofs in which a linear rule would be applied are not modelled (the model raises an exception there); step counts and the times of last visits are given up by the code itself; exceptions are not excluded (C66_raises)."
  },
  {
   "property": "C83",
   "status": "proved",
   "theorems": [
    "Props.C83_certificate",
    "Props.C83_certificate_sound",
    "Props.C83_order_independent",
    "Props.C83_fails_by_limits",
    "Props.C83_enough_limits",
    "Props.C83_filter_enough_limits",
    "Props.C83_counts_reported",
    "Props.C83_certificate_limit"
   ],
   "note": "The table that main prints in front of the certificate is not modelled. With small limits, whether a run succeeds does depend on the order."
  },
  {
   "property": "C84",
   "status": "proved",
   "theorems": [
    "Props.C84_reported_limits",
    "Props.C84_conclusive_stays",
    "Props.C84_inconclusive_reason",
    "Props.C84_nodes_reported"
   ],
   "note": "The elapsed time in the record is not modelled. For a machine without halting or undefined transitions backtrack_ttable returns None: there is then no answer to speak of."
  },
  {
   "property": "C85",
   "status": "proved",
   "theorems": [
    "Props.C85_ends",
    "Props.C85_ends_bound"
   ],
   "note": "If the tape is such that CTL4 raises an exception before its loop, that is its end; the filters of C21 to C24 say nothing then."
  }
 ]
}