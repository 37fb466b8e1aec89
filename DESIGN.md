# Formal model of sligocki/busy-beaver (Python part)

## Trusted base
- Lean 4.33.0 kernel. Every theorem depends at most on the standard axioms
  `propext`, `Classical.choice`, `Quot.sound` (checked with `#print axioms`). No axiom is declared,
  there is no `sorry`, no `native_decide`, no `bv_decide`.
- Definitions imported from Mathlib (finite sets, permutations, number theory), imported per module.
- The specification files under `lean/Verif/Spec/` (they have to be read to know what is claimed).
- The transcription Python -> Lean in `lean/Verif/Model/`. Each definition cites file and lines.
  It is checked by hand only: the sandbox cannot run the Python code.

## Layout
- `Verif/Spec/`   what the properties are stated in: the mathematical Turing machine on a two-way
  infinite tape, halting, score, infinitely often visited states, and so on. Independent of the model.
- `Verif/Model/`  transcription of the code.
- `Verif/Lemmas/` helper lemmas.
- `Verif/Props/`  the property theorems, with an `example` beside each showing the hypotheses can be met.

## Modelling conventions
- Python exceptions are values (`Option`/`Except`), never totalised away.
- Python `dict` = function to `Option` or association list; `set` = list with membership semantics.
- Loops with no static bound take fuel; theorems hold for every fuel, so for every run of the code.
- Time, printing, verbosity and float approximations are not modelled. Timeouts are modelled as "may stop at any
  moment" where they matter (CTL fuel, interruption of the filter pipeline between any two assignments).
- Where floats or randomness decide something, they are parameters, and a theorem says what it assumes of them
  (`Floats` in C43/C47, `Logs` in C59, `Contract` and `ideal` in C53).
- When the code does not have a property, the negation is proved with a concrete witness, and the strongest true part is
  proved under the suffix `_partial`. Theorems named `..._false`, `..._lost`, `..._changes`, `..._raises` are such
  counterexamples.
- Simple machines move LEFT/RIGHT only (`STAY` is never produced by the parsers).

## Not modelled
C++ code (`/repo/cpp`) other than listed below, the Rust code outside of the rule validator, plotting and statistics scripts, option parsing, MPI library internals, protobuf library internals (messages are
records, the wire bytes of a message are an opaque byte string), pickling of `ExpInt`, floats,
exponential and linear rules inside proofs (`--exp-meta-linear-rules`).

## Model files and the code they transcribe
| model | code |
|---|---|
| `Direct` | `Direct_Simulator.py` |
| `Filters` | `Reverse_Engineer_Filter.py`, `Backtracking_Filter.py` |
| `LinRecur` | `Lin_Recur_Detect.py` |
| `Machine`, `Cache` | `Macro/Turing_Machine.py`: transitions, `sim_limited`, block and back-symbol machines, caches |
| `ChainTape` | `Macro/Tape.py` |
| `Simulator` | `Macro/Simulator.py` without the proof system |
| `Prover` | `Macro/Proof_System.py` (default options) and `Simulator.step` with it |
| `Expr`, `Series`, `RuleFunc` | `Algebraic_Expression.py`, `series_sum`, `Macro/Rule_Func.py` |
| `ExpInt`, `ExpCompare`, `Math` | `Exp_Int.py` (constant exponents), `Math.py` |
| `BlockFinder` | `Macro/Block_Finder.py` |
| `CPS`, `CTL` | `CPS.py`, `CTL1.py` ... `CTL4.py` |
| `CPSCert` | `CPS.py` (`savask_cert`, `Config.__str__`, `block_to_str`) |
| `Table` | `Simple_Machine`, `tm_from_quintuples`, `IO/TM_Record.py` (text, packed and list formats) |
| `Records`, `Morphett` | `IO/StdText.py`, `IO/Proto.py`, `IO/BBC.py`, `IO/Morphett.py`, `IO/OldText.py` |
| `Status` | `Halting_Lib.py` |
| `Enum`, `Enumerate`, `WorkQueue`, `MPI` | `TM_Enum.py`, `Enumerate.py`, `Work_Queue.py`, `MPI_Work_Queue.py` |
| `Permute` | `TNF.py`, `LNF.py`, `Permute.py` |
| `Tools` | `Zero_Reflexive.py`, `Adjacent.py`, `Count.py` |
| `FileTools` | `IO_Categorize.py`, `IO_Sort.py`, `IO_Sample.py` |
| `Pipeline` | `Macro_Simulator.py` |
| `FilterTools` | the programs `Reverse_Engineer_Filter.py`, `Backtracking_Filter.py`, `CTL_Filter.py`, `CPS_Filter.py` |
| `Py`, `Str`, `Dict` | the Python built-ins used: indexing, strings, dictionaries and sets |
| `Limited` | `Macro/Proof_System.py` with `--limited-rules` |
| `Validator` | `rust/src/validator.rs`, `count_expr.rs`, `config.rs`, `tm.rs` without parsing and printing |
| `ValidatorText` | parsing and printing in `rust/src/tm.rs`, `count_expr.rs`, `config.rs`; `\d` is `[0-9]` |
| `Cpp`, `CppLazy` | `cpp/src/turing_machine.cpp`, `simulator.cpp`, `enumerator.cpp`, `lazy_beaver_enumerator.cpp`, `lb_enum.cpp`, `lb_enum_continue.cpp`; `cpp/scripts/merge_steps_examples.py`, `lb_enum_local_parallel.sh` (unbounded integers; without names, messages and options) |
| `CppFiles` | `cpp/src/direct_sim.cpp`, `direct_sim_all.cpp`, `lin_recur_main.cpp`, the stream functions of `turing_machine.cpp` (files are lists of characters; without times and messages) |
| `QuickSim` | `Code/Quick_Sim.py` (start state A, without `--manual`, recursive rules and printing other than the last report), `frozen` of `log_and_apply` |
| `LinearRule` | `Code/Macro/Proof_System.py`: `Linear_Rule`, `apply_linear_rule` with `--exp-linear-rules` (number exponents) |
| `ExpRule` | `Code/Macro/Proof_System.py`: `Exponential_Rule`, `apply_exponential_rule` (number exponents) |
| `FilterScripts` | `Tools/filter.sh`, `Tools/sbatch_filter_setup.sh`, `sbatch_filter_array.sh`, `sbatch_filter_finish.sh` |
| `ExpProto` | `Halting_Lib.py` 69-131: `ExpInt` in structured messages |
| `ExprText` | `Algebraic_Expression.py`: `__repr__` and `*_from_string` |
| `ExpText` | `Exp_Int.py`: `formula_str`, `tex_formula` |
| `ExpSym` | `Exp_Int.py`: exponents that are algebraic expressions with integer coefficients (`min_val`, `variables`, `substitute`, the operations) |
| `CppRecur`, `CppRecurEnum` | `cpp/src/lin_recur.cpp`, `lin_recur_enumerator.cpp`, `lr_enum.cpp`, `lr_enum_continue.cpp`; `cpp/scripts/lr_enum_local_parallel.sh` (unbounded integers; without compression and statistics) |
| `LineTools` | `Tools/venn_diff.py`, `cpp/scripts/shuffle_split.py`, `Code/Random_Sample.py` (random choices and set orders as parameters, files without carriage returns). `lr_enum_local_parallel_dev_null.sh` is not modelled: it stops under `set -e` because it concatenates files it has sent to /dev/null |
| `Visual`, `Curses` | `Visual_Simulator.py`, `Curses_Sim.py` |
| `Print` | `TM_Print.py`, `Macro/Turing_Machine.py` `machine_ttable_to_str`, `IO_CGA_to_Morphett.py`, `Machines/Tools/Convert_Format.py` |
| `RecLinear` | `Code/Macro/Proof_System.py` and `Code/Macro/Simulator.py` with `--recursive --exp-linear-rules`: linear rules applied at once in whole simulations (not inside proofs) |
| `RecordTools` | `IO_Count.py`, `IO_Find.py`, `Find_Record.py` (place of the record only), `IO/General.py` `get_tm`, `load_tm`; `Read_Record.py` is `loadFrame` of `Records` |
| `Analyze` | `TM_Analyze.py` (without timings, message sizes and layout) |
| `Convert` | `IO_Convert.py`, `IO/OldText.py` (writer), `IO/General.py` 14-31; encodings, compression and protobuf as parameters |
| `Recursive` | `Macro/Proof_System.py` with `recursive=True` (rules applied inside proofs, symbolic run lengths, linear rules), `Macro/Simulator.py` with that proof system |

## Results per property
Each entry: how it is proved, then (if anything) what is not true of the code or not covered. The theorem names are in
`MANIFEST.json`.

- **C01 Direct tape is a two-way infinite tape** (proved). Refinement: a buffer with an offset denotes a function from integers to symbols, and every operation commutes with the denotation; induction over operation lists.
- **C02 Direct simulator runs the machine exactly** (proved). Forward simulation against `Spec.step` by induction on the number of steps; halting, undefined cells and step counts included.
- **C03 Limited simulation of a segment is exact** (proved). Loop invariant of `sim_limited`: the segment inside any context is what the inner machine reaches after the recorded steps. `C03_first_exit`: the exit is the first one.
- **C04 Repeat-in-place verdict is sound** (proved). Invariant extended with the saved configuration; a repeat of (segment, position, state) after at least one step gives an infinite run by the translation argument.
- **C05 Nested macro machines do not report false infinite repeats** (partial). As C04, for inner machines that never give up. *The unrestricted claim is false: when the inner block machine gives up, the outer repeat check can fire wrongly (witness proved). Sound whenever the inner machine never gives up.*
- **C06 Block machine simulates the base machine exactly** (proved). Instance of C03 with a stream of blocks flattened to a stream of symbols.
- **C07 Back-symbol machine simulates the base machine exactly** (proved). Instance of C03 with the window of the cell and the symbol behind the head.
- **C08 Transition caching is invisible** (proved). Invariant over lookup histories: every cached value is the value of the function; capacity bound.
- **C09 Run-length tape is a faithful tape** (proved). Denotation of a run-length half tape as a stream; single and chain moves commute with it; well-formedness kept.
- **C10 Accelerated simulator is exact** (proved). Composition of C09, C06, C07 and C02: every state of the accelerated simulator is the state of the plain machine after exactly `step_num` steps; score included.
- **C11 Infinite verdicts of the accelerated simulator are sound** (proved). Infinite verdicts by macro repeat (C04) and by an endless chain; for all stacks of machines whose inner machine does not give up.
- **C12 Last-visit times are exact** (proved). The refinement of C10 carries last visits: the greatest index below the step count at which the state is current.
- **C13 Recurring states reported for in-place repeats really recur** (partial). Chain steps: exact set. *Exact for chain steps; for in-place repeats the reported set contains all recurring states but may contain others (witness proved).*
- **C14 Reverse-engineering filter is sound** (proved). At machine level: the step before a halting cell must be one of the transitions that the filter classifies.
- **C15 Backtracking filter is sound** (partial). Invariant of the backward search: every configuration that reaches the halting cell in k steps is covered. *The unrestricted claim is false: a machine whose first transition halts can get a success verdict (witness proved). Sound for every machine whose first transition does not halt.*
- **C16 Backtracking halting report is correct** (proved). Invariant: every partial configuration at depth k leads to the halt in k steps.
- **C17 Linear recurrence verdict is sound** (proved). Two equal windows of the tape around the cells visited in between give an endless run; halting reports and the other results are exact as well, and the search ends for every machine that has a linear recurrence.
- **C18 Minimal recurrence start is minimal** (proved). Correctness of the doubling and binary searches from monotonicity of the check.
- **C19 Quasihalt data of recurrent machines is correct** (proved). The states of one period are the states visited infinitely often.
- **C20 Closed position set filter is sound** (proved). Abstract interpretation: every reachable configuration is covered by an element of the closed graph; for every iteration order of the Python sets.
- **C21 CTL (A*) filter is sound** (proved). The final table covers all reachable macro configurations; generic over every sound machine; every number of rounds (that the loop ends is C85).
- **C22 CTL (A* B) filter is sound** (proved). As C21 with the (A* B) description.
- **C23 CTL (A B*) filter is sound** (proved). As C21 with the (A B*) description.
- **C24 CTL (A* B C) filter is sound** (partial). As C21 with the (A* B C) description, when the initial sets are right. *The initial sets miss symbols when a side has three or more runs and the outermost is longer than 2 (CTL4.py line 117 indexes -2 instead of 1); a halting machine is then claimed infinite (witness proved). Sound otherwise.*
- **C25 Packed machine format round-trips** (partial). Bit-level layout, round trip and exact conditions of rejection. *Proved for machines whose every move is left or right; a machine with another direction value (possible through the list format and Morphett reader) packs without error to bytes that unpack to a different machine (witness proved).*
- **C26 Machines survive a write/read through the protobuf message** (partial). Round trip through the message for machines of the packed format. *The unrestricted claim is false: machines in the list format are written correctly but every such message reads back as a machine without defined transitions, and seven-state eight-symbol machines that write symbol 7 cannot be written (witnesses proved).*
- **C27 Standard text format round-trips** (proved). Printer and parser are inverse in both directions; the parser accepts only sane machines.
- **C28 Text record files: what is written is read back** (partial). Line-based model of the file: reading gives the records that were written. *Proved for records of machines with fewer than 25 states and 10 symbols (the bounds of the text format); a larger machine is written as an empty line, at which reading stops, so all later records are lost (witness proved).*
- **C29 Binary record framing is robust** (proved). A file is a list of bytes; every truncation point: all complete records are read, then the error is reported.
- **C30 Database reader addresses the right machine** (partial). Offsets, decoding, iteration and the index file. *Proved for machines without a halting transition that writes 0; one that writes 0 and moves left is read as an undefined transition although its code differs (witness proved).*
- **C31 Big integers round-trip** (proved). Case distinction at the 64-bit border, round trip of hexadecimal text.
- **C32 Status updates are coherent** (partial). Invariant over all sequences of updates. *Proved for every sequence of updates that reports no recurrence for a machine already marked halting; other sequences mark a machine halting and quasihalting, and a recurrence report does not set the infinite flag (witnesses proved).*
- **C33 Child enumeration is exact, ordered and duplicate-free** (proved). Exact membership, order and absence of duplicates of the list of children.
- **C34 Enumeration is complete up to renaming** (proved). Every machine that runs from the blank tape is matched by an enumerated one up to a renaming; same halting time.
- **C35 Work queues neither lose nor duplicate jobs** (proved). Permutation invariant over histories; order of the FIFO and LIFO queues; statistics of the LIFO queue (`C35_stats`; the effect of the last operation is not yet in a report).
- **C36 The enumerator writes every machine exactly once** (proved). Invariant of the loop for an arbitrary decider; termination; statistics. *For machines with more than 7 states or symbols the enumerator may stop with an exception (C36_eight_states); everything it wrote before is as claimed.*
- **C37 Stopping and resuming an enumeration loses nothing** (partial). A run that is stopped and resumed writes the same set of records. *Proved for runs without the option that allows machines without a halting transition, when the run is resumed from the machines that were not run; both restrictions are needed (witnesses proved).*
- **C38 Parallel work distribution loses no job and terminates only when done** (proved). Transition system with channels: conservation of jobs in every reachable state, quit messages only when nothing is left, no deadlock. *Messages of one worker are delivered in order. No deadlock unless a process crashes (C39).*
- **C39 Parallel workers never crash on their own queue bookkeeping** (partial). Exact condition for the exception and reachable states in which it is raised. *False in general: float slice indexes (exact condition and reachable witnesses proved, for workers and for the master). Proved for workers that have not received a new queue size.*
- **C40 Renaming a machine preserves its behaviour** (partial). Bisimulation of the permuted machine. *Runs, halting and step counts proved in full. Scores only if the halting transition writes a non-blank: permute_table rewrites halting transitions to "write 1, move right", which changes the score otherwise (C40_score_changes).*
- **C41 Normal form conversion keeps the machine** (partial). From C40, once the computed orders are shown to be permutations. *Isomorphism, halting behaviour and tree normal form of the result proved in full, and the listing of all start states. Converting twice gives the same result unless the machine halts within the step limit; C41_not_idempotent is a counterexample for halting machines.*
- **C42 Lexical normal form is minimal and canonical** (partial). The result is the least of the explicit list of candidates. *Minimality and membership proved in full. Canonicity is violated (the direction is chosen by the transition on symbol 0 instead of the first symbol of the order); proved for renamings that keep the blank, of machines whose blank transitions are running and whose halting transitions are standard.*
- **C43 Number theory helpers are correct** (partial). Against Mathlib: `gcd`, `lcm`, `Nat.Prime`, order of units. *gcd, lcm, int_pow (the least root given accurate floats) and factorisation proved in full. Carmichael and modular power: every answer is right, and there is an answer iff the modulus factors over the primes below 100; larger primes are refused by an exception (C43_prime_factor_refuses).*
- **C44 Algebraic expressions evaluate homomorphically** (proved). Evaluation is a homomorphism; substitution; normal forms decide equality. *Evaluation is a homomorphism, normal form is kept, equality is decided exactly on normal forms.*
- **C45 Lower bounds of expressions are sound** (proved). Sign argument on the coefficients; the bound is attained.
- **C46 Closed-form series sums are correct** (partial). Sums of powers by induction. *Violated: for powers above 2 a wrong polynomial is used silently (C46_wrong_cubic), and a fractional coefficient is floored (C46_wrong_fraction). Exact for integer polynomials of degree at most 2 in the counter.*
- **C47 Exponential integers compute exactly** (partial). Value semantics in the rationals for constant exponents of every nesting. *Every returned result is exact, for every nesting depth of exponents, except remainders: they are exact if the comparisons of exponents with small numbers are right (C47_mod_partial), which holds for mild exponents whatever the logarithms (C47_mod_mild_partial) but not for all (C47_mod_false: 2^(2^1000 - (2^1000 - 1)) % 4 gives 0 instead of 2). Not total: different bases, negative divisors, moduli with a prime factor above 97 raise (witnesses given). Symbolic exponents: C78.*
- **C48 A proven rule is valid for all run lengths** (proved). The symbolic run commutes with every assignment of run lengths at or above the minima. *Without recursion, for all four machine stacks; both difference rules and general rules: final tape, step count and last visits as functions of all run lengths at or above the minima; every rule held in a run.*
- **C49 Applying a rule is exact** (proved). C48 iterated; simulation relation between runs with and without the proof system. *One application, and whole runs of the simulator with proof system: refinement of the simulator without it, exact configuration, score and last visits, no exception (max_num_reps nonzero).*
- **C50 Infinite verdicts of the prover are sound** (proved). C48 iterated for ever. *The machine never halts and the reported states are exactly those visited infinitely often.*
- **C51 Morphett format round-trips; old text format is the standard text with spaces** (partial). Print/parse round trip. *Round trip proved for machines whose states and symbols first appear in order; other machines come back renamed, unreadable or smaller (witnesses proved).*
- **C52 Counting and neighbourhood tools are exact** (proved). Exact list characterisations; the count is the cardinality of an explicit set of completions, by induction over the tree. *Exact membership, no duplicates and number of adjacent machines; the zero-reflexive test is "possibly reflexive" (an undefined blank cell counts as yes) and the program fails after an empty input; count = cardinality of the set of represented machines, for every machine of the 1RB tree, and the counts of all records of a run add up to the closed formula.*
- **C53 Record file tools lose nothing** (proved). Partition, permutation and stability of lists; reservoir sampling in an expectation monad, by induction on the records. *Categorising: each record read is in exactly one output file, the one whose name describes it; counters right; exceptions exactly for damaged files and unreadable numbers. The category of infinite machines includes those whose quasihalting is undecided. Sorting: stable, descending, a permutation. Sampling: sub-multiset of the input of the requested size for every source of randomness that keeps its contract, and exactly uniform for ideal randomness. The number printed as scanned is one too large (C53_scanned_false).*
- **C54 Pipeline verdict is truthful** (partial). Trace of assignments; composition of C10, C11, C14, C17, C22, C50. *Verdicts, scores, step counts and quasihalting data of the whole pipeline are right, whatever its options and however it ends, with exactly these exceptions, each proved to be a real one by a counterexample: an infinite verdict from an in-place repeat over blocks that gave up (C54_limits_false: a 16-state 10-symbol machine that halts at step 10132 is marked infinite with --block-size=5 and otherwise default options), step counts with --no-steps (reported as 0), quasihalting data after an in-place repeat, and an alarm between two assignments.*
- **C55 Rule repetition functions are correct** (partial). Closed forms by induction. *Iterated application is exact for every kind with integer values; a multiplier of 1 raises (C55_mult_raises); the Pow minimum needs exact logarithms.*
- **C56 Block size search is harmless** (partial). Termination measure of the search and C10 for an arbitrary block size. *The search always ends with a positive block size (no exception, also without a limit on the size), and with that size all simulators are exact about running and halting. Infinite verdicts over the back-symbol machine on top of the block machine are right unless an in-place repeat was seen after the block machine gave up, where the claim is false (C05).*
- **C57 Recursive proofs are sound** (partial). Counterexamples evaluated in the kernel; invariant over the loops of the simulator for what is right. *The claim is false, shown by two machines: one that never halts is reported as halted after 12 659 steps (the minima of general rules are relaxed although rules were used in their proof), and one that halts after 32 653 steps is reported with 32 628 (cubic sums with fractional coefficients, C46). Proved: as long as no general rule has been proved with the help of rules, the configurations, scores, halting verdicts, reported cells, infinite verdicts and recurring states are right; difference rules proved with rules are covered. The proof goes through tapes of expressions: every rule that `prove_rule` returns is right for all values of its variables (`proveRule_sound`), and applying a right rule follows the machine. Exceptions: `Lemmas/RecSafe*.lean` show that lengths of blocks stay linear with positive coefficients, that every smallest value has been recorded and that every substitution succeeds, so only a sum refused by `series_sum` (fourth and higher powers, C57_sum_accepts) can raise one, and `--max-num-reps=0` (C57_exception_limit). Stated with the simulator that goes on with 0 in place of a refused sum: it never raises an exception, and the simulator agrees with it until a sum is refused (C57_kept_exceptions; C57_exceptions_partial for the code as long as no general rule has been proved with the help of rules). Not modelled, so not covered: the assertion of `series_sum` that a summand without variables is an `int` and not a fraction (1461-1464), and the time each state was last seen. Proved for all rules: the same program with the minima of general rules proved with rules kept at the exponents of the proof is right for every machine, stack and number of loops (C57_kept_right, C57_kept_infinite), so every report of the code that the lowered minima have not changed is right (C57_agree_partial), which includes all runs without such rules (C57_plain_agree). `Spec/RecursiveStrict.lean` is the simulator of `Model/Recursive.lean` with a parameter at the one place where the minima are lowered; with the code's choice it is the code's simulator by `rfl`. The new proof shows that all lengths in a proof with rules stay linear in its variables (`Lemmas/RecLin.lean`). Step counts: the sum over the applications of a difference rule is a parameter too (class `Sums`, instance `codeSums` = `series_sum`); `Spec/RecursiveSums.lean` says what such a sum must be (`SumsRight`) and has one without the faults of `series_sum` (`exactSum`). With it and the minima kept (`repaired`) every report is right, number of steps included (C57_repaired_right; C57_sums_right for any right sum), so every report of the code that neither fault has changed is right, number of steps included (C57_agree_steps_partial). A number of steps is taken with any values put in for variables left in it, because it is not proved that none are left.*
- **C58 Filter programs keep files right** (partial). Induction over the records, with C14, C15, C20 to C23 for the single filters. *Proved in full for the reverse engineering filter and CTL1 to CTL3 except that they forget what is known about quasihalting (C58_quasihalting_forgotten). CPS_Filter writes only right statuses but forgets all earlier verdicts (C58_cps_forgets); CTL4 makes files wrong (C58_ctl4_false, by C24). Backtracking_Filter stops at the first record of every file, because IO.parse_ttable does not exist (C58_backtrack_raises); what it would do otherwise is right except for machines that halt in their first step (C15).*
- **C59 Comparisons and signs of exponential integers** (partial). The logarithms are a parameter; signs, towers and the four comparisons (with the detour over negation) are modelled exactly. *False as stated, with witnesses: constants never count against a term that is too large to evaluate (2^1000 - 10^400 is 'positive'), denominators hardly, and of terms of one sign only the largest counts. Right for numbers that can be evaluated, for signs of sums without opposite signs, for mild numbers against integers below 2^64, and for single powers up to the error of the logarithms; always a consistent order.*
- **C60 Limited rules are exact** (proved). `Model/Limited.lean` transcribes proving with block ids, the cut, storing under both sides, looking up and applying. `Lemmas/LimitedZone.lean`, `LimitedRun.lean`: a run of the proof that keeps to the touched blocks is also a run in every other surrounding (the erased run equals the proof of the unlimited prover, so `C49` is reused). `LimitedApply.lean`: application changes only the zone and counts steps exactly. `LimitedSim.lean`: invariant of the accelerated run, for every order of candidates. The cases beside the theorems use a stored rule on a tape it was not proved on, and run the 47 176 870 step machine over blocks of 3 to its end. *The trying order of the candidate rules is a parameter of the model; the theorems hold for every order. Verdicts of the layered macro machine are covered under the same hypothesis as C11.*
- **C61 What the Rust rule validator accepts is true** (partial). `Model/Validator.lean` transcribes expressions, half tapes, configurations and the proof checker; `Spec/Validator.lean` says what a rule means. `Lemmas/ValidatorExpr.lean`: every operation on expressions keeps the value. `ValidatorTape.lean`: normalising, popping, substituting, replacing and comparing half tapes keep the tape described. `ValidatorSound.lean`: a step of the checker is a run of the machine; induction on the induction variable with the other variables and the surrounding tape arbitrary. `ValidatorStrict.lean`: one refinement proof relates the modes (capture check, overflow) and the bounds. The model of the capture check is not in the code; `C61_strict_same` says it changes nothing else. *The full statement is false of the code: variables can be captured when a substitution goes below a function (C61_capture_false) or when functions are compared (C61_rename_false), a release build wraps around at 2^64 (C61_release_false), Admit ends a proof (C61_admit_false), and the comparison of tapes need not end (C61_diverges). Proved: acceptance without a capture, an overflow or Admit implies truth; rule sets without functions need no check for captures.*
- **C62 The Rust rule validator reads what is written** (partial). `Model/ValidatorText.lean` has the printers, the readers and a backtracking search for the three regular expressions. `Lemmas/ValidatorText.lean` shows for each printed text that the search has exactly one result; `Lemmas/ValidatorCount.lean` adds up the terms of a written count and shows that the first part of a printed function never matches. `Spec/ValidatorText.lean` says what is printable and what a written count means. *False of the code: the regular expression for a term anchors only one end of each alternative, so n-1 is read as n and 10-3 as 3 (C62_rest_ignored, C62_front_ignored); state 25 is printed as the halting state, the symbol 10 as two symbols; functions are printed but cannot be read. Proved: round trips for symbols up to 9, states up to 24 and counts without functions; exactness for machines; the value of every well-formed sum.*
- **C63 The lazy beaver search prints the lazy beaver number** (proved). `Model/Cpp.lean` transcribes machine, text format, tape, simulator and enumerator of the C++ code (array access out of bounds and failed assertions are outcomes), `Model/CppLazy.lean` the search and the merge. `Lemmas/CppSim.lean`: the simulator refines `Spec.step`. `Lemmas/CppEnum.lean`: an invariant of all machines on the stack, the trace of machines looked at is closed under the allowed continuations, and the stack becomes empty because each child has one undecided cell less. `Lemmas/TreeGen.lean`: any set of tables closed in this way contains, for each machine, a renamed or mirrored restriction that halts at the same step. `Lemmas/CppText.lean`: what is written is read back as the same table. For the parallel version the closed set is the union of the traces of both stages. *Integers are unbounded in the model. Outside of the range of sizes: with one state or one symbol the program reads outside of its arrays (C63_one_state, C63_one_symbol), with 26 states it stops (C63_too_large).*
- **C64 The C++ linear recurrence detector is right and finds what it should** (proved). `Model/CppRecur.lean` transcribes the detector on top of the simulator of `Model/Cpp.lean`. `Lemmas/CppRecur.lean`: the comparison of sections of the two tapes is equality of the tapes on the cells visited since the reference configuration (out-of-range accesses are shown not to happen), hence equivalent to `PeriodicFrom`, the specification used for the Python detector (C17); inner and outer loop by induction with the powers of two already tried. *With a limit of at most one step nothing is reported although a step is made, and one field of the answer has no value (C64_limit_one). Integers are unbounded in the model.*
- **C65 The C++ enumeration with the linear recurrence detector misses nothing and its files are true** (proved). `Model/CppRecurEnum.lean` transcribes the filter with its three files (lines as text), `lr_enum`, `lr_enum_continue` and the script. `Lemmas/CppRecurEnum.lean`: `Entry` says what a machine adds to the files, `Trace` what is known of a finished enumeration, traces can be joined; completeness from the generic closed-set theorem of `Lemmas/TreeGen.lean` with "the detector reports halting" as the criterion for having children, started from the invariant of the 1RB root that was proved for the Python enumeration (C34). *Machines whose first transition writes the blank or stays in the initial state are not looked at by the program (`first_1rb`). `only_unknown` has no value in builds without Boost; C65_only_unknown and C65_parallel_only hold for both values. Integers are unbounded in the model.*
- **C66 Linear rules applied at once (--exp-linear-rules) equal repeated application** (partial). `Model/LinearRule.lean` transcribes `Linear_Rule.try_gen` and `apply_linear_rule`; `Spec/LinearRule.lean` says what one application of a rule does. The functions of C55 give the closed forms; the scan finds the least number of repetitions; the loop of `apply_general_rule` (model of C57) is compared by induction on the repetitions. *All parts are proved except that no exception is raised, which is false: at a fixed point of x -> m x + c, which the minimum computed by the code allows, an assertion fails (C66_raises); it fails in no other case (C66_raises_partial). Exponents are numbers: linear rules used inside proofs (--exp-meta-linear-rules) are not modelled. Blocks of exponent 0 are removed only without the option; by inspection (not proved) the minima that prove_rule computes exclude them.*
- **C67 Text files of machines mean the same to the Python, C++ and Rust programs** (partial). `Model/CppFiles.lean` transcribes the programs on top of `Model/Cpp.lean`. `Spec/CppFiles.lean` says what a file of machines with remarks is, by the standard text of C27, and when a remark is true. `Lemmas/CppFiles.lean`: each of the three writers produces the standard text; each of the three readers inverts it; streams and line numbers by induction over the lines; the simulator refinement of C63 and the detector theorems of C64 give what the programs report; the lines of the files of lr_enum from the trace of C65. *Proved for standard text. False for other text that some of the programs accept: a halt state written H is halting for Python and the eighth state for C++ and Rust, where C++ then leaves its table (C67_halt_letter_false); a remark after a comma, bar or hash sign is skipped by C++ only (C67_remark_false); a short dash is read by C++ only (C67_dash_false); a blank line silently ends the file for Python (C67_blank_line_false). Past the end of the file direct_sim and lin_recur use a null pointer (C67_line_missing). A Python record cannot hold the symbol 7 of a machine with at most 7 states and 8 symbols (C25), hence the condition Packable.*
- **C68 Quick_Sim reports only what is true of the machine, and finds every halt within its limits** (partial). `Model/QuickSim.lean` transcribes the two loops, the frozen proof system and the report on top of the simulator with proof system. `Spec/QuickSim.lean` says when a report is right. `Lemmas/QuickSim.lean`: a step is a step of the simulator of C49 or, if frozen or switched off, a step of the plain simulator; the invariant of C49 holds either way, hence exactness, last visits and infinite verdicts as there; loop counts by induction; progress (each loop is a step) gives the end of the run for halting machines. *The verdict 'infinite' with reason MACRO_STEP is proved for runs without back symbols or in which no block gives up; without this it is false (C68_limits_false: a machine that halts after 10 132 steps, with --block-size=5 and --max-steps-in-block=10000). Quasihalting is proved for the other reasons only (false for MACRO_STEP, C54_quasi_false). A run with output does more loops than --max-loops unless that is a multiple of --print-loops (example); with --print-loops=0 it never ends (C68_print_zero); --freeze-prover with --no-prover raises (C68_freeze_without_prover). Options for recursive rules and --start-state are not modelled.*
- **C69 The recurrence detector misses nothing it could see, and the C++ detector answers the same** (proved). `Lemmas/LinRecurComplete.lean` describes the answer round by round: round e looks at step 2^e and, because the comparison of tapes decides periodicity (`compare_iff`), finds the least period up to 2^e or proves that there is none. Two periods of one history hold from the same start (`periodic_same_start`), which makes the reported period least over all starts. The C++ detector has the same description (C64), and the description determines the answer. *The number of rounds the caller waits for is a parameter, so that running without a limit can be spoken of. With the limit of one step the Python program always raises (C69_raises_iff) while the C++ one gives up.*
- **C70 Counting and finding records** (proved). `Model/RecordTools.lean` transcribes the loops on top of the record reader of `Model/Records.lean`. `Lemmas/RecordTools.lean`: each loop equals a list search over what the reader yields (`ioFindFile_eq`, `findPacked_eq`, `findText_eq`), the count by induction over the records with the cut (`countFile_cut`); texts and packed bytes determine the machine (C25, C27). *Witnesses for the limits: another text of the same machine is found by one tool only (C70_other_text); Find_Record raises for machines with eight states (C70_large); a cut inside the data of a record is counted as a record (C70_overcount).*
- **C71 The statistics over record files are right** (proved). `Model/Analyze.lean` transcribes the statistics; `Spec/Analyze.lean` says for each number what it is a count, sum, least or greatest of. Proved by induction over the records with the whole of `Stats.Of` as invariant (`Stats.Of.add`). *C71_fails says exactly when there is no report; C71_min_of_nothing is a file of readable records on which the program fails. Timings and message sizes are not modelled; comparisons of huge numbers are taken to compare values.*
- **C72 Converting files keeps the machines, in the formats that can be converted** (proved). `Model/Convert.lean` transcribes `IO_Convert.py` and the writer of the old text format over a file system of byte strings, with the readers and writers of the earlier models; `Spec/Convert.lean` says what an extension is and what is assumed of the libraries. The text theorem goes by induction over the lines, the binary one over the frames; that a record's message and its machine object agree is an invariant of all readers (`Coherent`). *The text encoding, gzip, zip and protobuf libraries are parameters with the laws `Lib.Laws` (round trips); ConvertDemo gives a library that satisfies them. Machines with more than 7 states or 8 symbols are not read correctly from binary files (C26).*
- **C73 Exponential rules are applied rightly** (partial). `Model/ExpRule.lean` is `Exponential_Rule.try_gen`, `apply_exponential_rule` and the loop of `apply_general_rule` on tapes of numbers, with results that are infinity, linear expressions or powers; the floating point bound is a parameter. `Spec/ExpRule.lean` says what one application does (`AppliesE`, by the values of the results) and what it means that results are integers. C73_shape and C73_minima say what rules are made, C73_fails, C73_applied and C73_infinite_partial what the three answers mean, C73_never_halts_partial carries the last one to any deterministic machine, C73_answers_partial says that there is an answer without an exception if the exponents of the powers are positive. The growth of powers is C55_pow_min_partial. C73_float and C73_rounding are the cases that go wrong. *Infinite verdict proved under the assumption that the floating point logarithm is right at the minimum and that the proved rule has integer results; C73_rounding shows that the assumption is needed (3^x + 30 - 3^31 at 31, with the value math.log returns), C73_float that a power with exponent 0 leaves a float on the tape.*
- **C74 The filter scripts lose no machine** (partial). `Model/FilterScripts.lean` is the four scripts on a data directory (a record file is what a reader finds in it, the filter command is an arbitrary function that may fail or write damaged files); categorising is the model of C53, counting that of C52. `C74_filter` describes one run, `C74_filter_ok` says when it succeeds, `C74_conserved` is by induction over the runs for any measure into a commutative monoid and `C74_no_machine_lost` takes multisets of machines. `C74_size`: the decimal numeral of n is lexicographically below "1000000" only for 0 and six powers of ten. For the cluster `split` is any function that cuts the lines into N parts. Not modelled: file system errors, `in.txt`, the log, directory names that are not plain names, more than ten million parts. *The unrestricted claim is false of the scripts; C74_*_false are witnesses. Conservation is proved for different directories and, for the cluster, up to the records of halt.unk.pb and qhalt.unk.pb.*
- **C75 Exponential integers stay in normal form and survive structured storage** (proved). `Spec/ExpNormal.lean` states the normal form, the numbers a program can get (`Built`) and what a message describes; `Model/ExpProto.lean` is `serialize_exp_int`, `parse_exp_int` and `get_big_int` on message values. `C75_normal_form` is by induction on the recursion depth over the mutually recursive constructors and operations of `Model/ExpInt.lean`; `C75_built` follows by induction on the operations, and gives the hypothesis `Normal` of C59. `C75_reads` is by mutual induction on messages. `C75_powers` derives the assumption on `int_pow` from C43. Not modelled: the bytes of messages and pickles, symbolic exponents. *Assumes that sorting by the approximate exponents permutes the terms and that int_pow does not miss powers (C75_powers: accurate floats); pickling of exponents is a pair of functions with loads(dumps x) = x.*
- **C76 Algebraic expressions survive printing and reading** (partial). `Model/ExprText.lean` has the printing and reading functions on lists of characters with exceptions as values; `Spec/ExprText.lean` gives the grammar of sums (`sumText`) and its meaning without reference to reading. The proofs cut the text at `+`, then at `-` and at spaces (`Lemmas/ExprText.lean`). The four theorems `C76_sum_*` cover all texts of the grammar. Simplified: `int()` reads ASCII digits with a sign. *Printing and reading back is proved without limits for terms with variables; reading of hand-written texts is classified completely for the grammar of Spec/ExprText (the unrestricted claim is false of the code, witnesses proved).*
- **C77 The printed formula of an exponential integer has its value** (proved). `Model/ExpText.lean` has the two printers, `Spec/Formula.lean` a recursive-descent calculator that knows nothing of `ExpInt`. `Lemmas/ExpText.lean` shows by mutual induction on numbers, lists of terms and terms what the calculator reads from a text followed by something that may follow it, and that texts can be cut in one way only. *For constant numbers; the limit of 20000 digits on the text of an int (Common.py) is not modelled.*
- **C78 Symbolic exponential integers compute the function they stand for** (proved). `Model/ExpSym.lean` builds on `Model/ExpInt.lean` (numbers) and `Model/Expr.lean` (exponents). `Spec/ExpSym.lean` gives the value at an assignment as a rational number (integer powers), what a minimum is, and what a program can make. The proofs are invariants of the constructors: a term and a sum keep value, base, normal form of exponents and minimum; the operations follow with C44, C45 and C47. *For results that are returned. Expressions that themselves contain ExpInts as coefficients are not modelled; where a negative exponent would lead into floating point the model stops.*
- **C79 Comparing, splitting and sampling files of lines loses nothing** (proved). `Model/LineTools.lean`: files are texts, lines keep their newline as in Python, the set order, the permutation and the random numbers are parameters. `Lemmas/LineTools.lean`: the loop over the right file as an invariant on the set, an error bound for the chunk bounds before they are rounded (the exact case where the number of chunks divides the number of lines is separate), and reading lines one by one. C79_lr_parallel and C79_lb_parallel put the script into C65 and C63, whose distribution was arbitrary. *What is assumed of floating point numbers is FloatRounding in Spec/LineTools.lean. Files without carriage returns.*
- **C80 The visual simulators show the run of the machine** (partial). `Spec/Visual.lean` has the language of start configurations with its meaning, a terminal that interprets control sequences, and the picture of a configuration. `Lemmas/Visual.lean`: the text of every part of a line draws its cells from any colour; reading inverts writing of start configurations; the simulator at time k knows the extreme positions so far. `Lemmas/Curses.lean`: invariant of the pad (line r shows step r, also after enlarging and starting anew), lifted to the screen and to all keys; fuel for the two loops with proofs of termination and of non-termination. Of the curses library it is assumed what the head of `Model/Curses.lean` says. Not modelled: option parsing, the printed transition tables, start configurations with states or symbols the machine does not have, size limits of pads. *Visual_Simulator.py completely; Curses_Sim.py: shown correctly whenever the keys are answered, but it hangs after halting (C80_curses_hangs) and fails at the corner of the pad (C80_curses_corner).*
- **C81 Printed transition tables show the machine; converted tables are the machine** (partial). `Spec/Print.lean` has a reader of drawn tables (cells between bars), the text of a transition, the meaning of sheets and the form of Marxen2 files. `Lemmas/Print.lean`: every printed line is read as its cells; the cells determine the transitions because the names of states and symbols are distinct. `Lemmas/PrintCGA.lean`: splitting a line of words with any blanks gives the words; reading a sheet by induction over its lines; Marxen2 rows by induction over the states. The way back from Morphett files is C51. Not modelled: the colours and legends around the tables, writing of the output file, options. *Printed tables completely (with the limit of C81_z_false); for sheets, C81_sheet_morphett_partial asks that every state has a transition, some transition reads 1 and the names are possible in a Morphett file (C51); Marxen2 files as produced with one machine.*
- **C82 Whole simulations with --recursive --exp-linear-rules tell the truth** (partial). `Model/RecLinear.lean` puts the linear rules of C66 into the simulator of C57; `Spec/RecLinear.lean` has the simulator with two parameters (what is done with minima and with blocks after a linear rule), equal to the model by definition for the choice of the code. One application of the rule function is one use of the proved rule (`count_next`), so k repetitions in closed form are k uses of the proved rule (induction), and a rule without decreasing block is used forever. The invariant of C57 then carries over. *The unrestricted claim is false (C82_false_halt). Proved for all runs with the minima kept and empty blocks removed (C82_kept_right, C82_kept_infinite) and for all runs of the code that agree with such a run (C82_agree_partial). Proofs in which a linear rule would be applied are not modelled (the model raises an exception there); step counts and the times of last visits are given up by the code itself; exceptions are not excluded (C66_raises).*
- **C83 The certificate printed by the closed position set filter is a complete proof** (proved). `Model/CPSCert.lean` prints the text from the final state of the filter of C20; `Spec/CPSCert.lean` has a reader of such texts, says which configurations a certificate describes and what it means that it proves. `C83_certificate`: reading gives back the graph (one-digit symbols, named states and unique keys are an invariant of the run), and the closure that the last round of the filter checks makes it an inductive invariant. `C83_certificate_sound`: such an invariant implies that the machine never halts. `C83_certificate_limit`: two machines outside the hypotheses. `C83_order_independent`: everything a run finds is in the final set of any other successful run (simulations with different limits agree if both come to an end), the lists have no item twice, and sorting them is unique. `C83_fails_by_limits`: all that a failing run simulates is in the closed set of the successful one, where no window halts, so that only the budget of steps or another limit can end it. `C83_enough_limits`: a window is added at most twice (again only while it waits for its simulation), a pair once, and every round but the last adds something, which bounds all four counters by numbers that depend on the closed set only; so with larger limits every run succeeds, with the same text. `C83_filter_enough_limits`: the same for the filter that tries many sizes. `C83_counts_reported`: the number of edges reported is that of the pairs listed, without the two of the start, and the number of configurations is at least that of the windows listed, without the first. *The table that main prints in front of the certificate is not modelled. With small limits, whether a run succeeds does depend on the order.*
- **C84 The depth and width reported by the backtracking filter are exactly the limits it needs** (proved). The model is that of C15 and C16 (`Model/Filters.lean`). `Lemmas/BacktrackBudget.lean` shows by induction on the steps left that a successful loop runs again in the same way with any limits not below those it reports, and on the list of halting cells that merging keeps this. Every round of a success expands between one and width many partial configurations, which bounds the number of nodes. *The elapsed time in the record is not modelled. For a machine without halting or undefined transitions backtrack_ttable returns None: there is then no answer to speak of.*
- **C85 The closed tape language filters come to an end** (proved). `Lemmas/CTLEnd.lean`: the rounds keep keys and symbols within finite sets, the table only grows, and every round but the last adds a key or a symbol to one of the six sets of a key. `Lemmas/CTLFinite.lean`: block and back symbol machines over a finite machine stay in finite sets of states and symbols, and so does the simulation up to the cutoff. `Returns` in `Props/CTLEnd.lean` is the meaning of the loop without any limit; `C85_ends_bound` has the bound in numbers. *If the tape is such that CTL4 raises an exception before its loop, that is its end; the filters of C21 to C24 say nothing then.*

## Mutation testing
`seeded/LOG.jsonl` records every wrong program tried: the definition of the model that was edited (in a copy outside this
directory), the edit, the claim it breaks, the theorems that no longer proved, and theorems that were tightened because they
still proved.
