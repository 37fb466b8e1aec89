{"id": "C01", "title": "Direct tape is a two-way infinite tape", "statement": "After any sequence of moves and writes on the growable tape, reading a cell returns the last value written there, or the blank symbol if it was never written; growing the tape never loses, shifts or invents contents; copying gives an independent tape with the same contents.", "quantifier": "every sequence of reads, writes, moves, position reads/writes and expansions, in both directions", "why_tests_cant": "The tape is reallocated and the centre moves when the head leaves the buffer; a test only sees finitely many expansion patterns.", "anchors": ["Code/Direct_Simulator.py:DirectTape (16-94)"]}
{"id": "C02", "title": "Direct simulator runs the machine exactly", "statement": "Stepping the direct simulator n times from the blank tape gives the state, head position, tape contents, step count and nonzero count that the mathematical Turing machine has after n steps; once the machine halts, further steps change nothing and the halt flag is true exactly when the mathematical machine has halted.", "quantifier": "every machine table and every number of steps", "why_tests_cant": "Infinitely many machines and unbounded run lengths; the buffer layout is invisible to a test.", "anchors": ["Code/Direct_Simulator.py:DirectSimulator (97-139)"]}
{"id": "C03", "title": "Limited simulation of a segment is exact", "statement": "When the segment simulator reports that it left the segment, the machine started on any tape containing that segment really performs exactly that many steps, leaves exactly that segment contents, and leaves on the reported side in the reported state; when it reports a halt, the machine really halts after exactly the reported number of steps.", "quantifier": "every machine, segment, start position, direction, loop limit and every surrounding tape", "why_tests_cant": "Quantifies over all surrounding tapes and unboundedly many loops; one run fixes one context.", "anchors": ["Code/Macro/Turing_Machine.py:sim_limited (93-163)"]}
{"id": "C04", "title": "Repeat-in-place verdict is sound", "statement": "When the segment simulator over a plain machine reports an infinite repeat, the machine started on any tape containing that segment never halts.", "quantifier": "every plain machine, segment, start position, loop limit and surrounding tape", "why_tests_cant": "The claim is about infinite future behaviour.", "anchors": ["Code/Macro/Turing_Machine.py:sim_limited (126-138)"]}
{"id": "C05", "title": "Nested macro machines do not report false infinite repeats", "statement": "For a back-symbol machine stacked on a block machine an infinite-repeat verdict implies that the underlying machine never halts.", "quantifier": "every machine, block size and per-symbol step limits", "why_tests_cant": "Needs the interaction of an inner give-up with the outer loop detector at exactly the checkpoint configuration; tests with default limits never hit it.", "anchors": ["Code/Macro/Turing_Machine.py:sim_limited (126-150)", "Code/Macro/Turing_Machine.py:Backsymbol_Macro_Machine.eval_trans"]}
{"id": "C06", "title": "Block machine simulates the base machine exactly", "statement": "A running transition of the k-block machine corresponds to exactly the reported number of steps of the base machine on the flattened tape, for every block size and every legal start offset; a halting transition means the base machine halts after exactly that number of steps with the same tape.", "quantifier": "every machine, block size, offset, macro symbol, state and direction", "why_tests_cant": "All block sizes and all tapes.", "anchors": ["Code/Macro/Turing_Machine.py:Block_Macro_Machine (353-417)", "Code/Macro/Turing_Machine.py:OffsetStartState"]}
{"id": "C07", "title": "Back-symbol machine simulates the base machine exactly", "statement": "A running transition of the back-symbol machine corresponds to exactly the reported number of base steps on the tape with the back symbol put back behind the head; on a halting transition the step count and the number of nonzero cells are those of the base machine.", "quantifier": "every machine, back symbol, front symbol, state and direction", "why_tests_cant": "All tapes and machines; in particular halting in the middle of the two-cell window.", "anchors": ["Code/Macro/Turing_Machine.py:Backsymbol_Macro_Machine (449-515)"]}
{"id": "C08", "title": "Transition caching is invisible", "statement": "Looking transitions up through the bounded cache returns the same transition as computing it afresh, whatever was looked up before and however often the cache was cleared.", "quantifier": "every history of lookups and every cache capacity", "why_tests_cant": "Depends on the whole lookup history including evictions.", "anchors": ["Code/Macro/Turing_Machine.py:Block_Macro_Machine.get_trans_object (391-396)", "Code/Macro/Turing_Machine.py:Backsymbol_Macro_Machine.get_trans_object (477-482)"]}
{"id": "C09", "title": "Run-length tape is a faithful tape", "statement": "A single move on the compressed tape equals popping and pushing one symbol on the uncompressed tape, a chain move equals as many single moves as the length of the run, adjacent runs always have different symbols, all run lengths stay positive and the blank runs at both ends stay infinite.", "quantifier": "every reachable compressed tape and every move sequence", "why_tests_cant": "Unbounded tapes and run lengths.", "anchors": ["Code/Macro/Tape.py:Chain_Tape.apply_single_move (126-148)", "Code/Macro/Tape.py:Chain_Tape.apply_chain_move (150-167)"]}
{"id": "C10", "title": "Accelerated simulator is exact", "statement": "While the accelerated simulator (no proof rules) is running, its step count, tape, state and direction are exactly those of the base machine after that many steps; when it reports halt, the base machine halts at exactly that step and the reported score is the number of nonzero cells.", "quantifier": "every machine stack (plain, block, back-symbol and combinations) and every number of simulator loops", "why_tests_cant": "Macro and chain steps skip unboundedly many base steps.", "anchors": ["Code/Macro/Simulator.py:Simulator.step (129-219)", "Code/Macro/Simulator.py:Simulator.get_nonzeros"]}
{"id": "C11", "title": "Infinite verdicts of the accelerated simulator are sound", "statement": "When the accelerated simulator over a plain or single-layer macro machine reports an infinite repeat (macro step or chain step into the blank), the base machine never halts on the blank tape.", "quantifier": "every machine, macro machine and number of loops", "why_tests_cant": "Claim about infinite behaviour.", "anchors": ["Code/Macro/Simulator.py:Simulator.step (182-194)"]}
{"id": "C12", "title": "Last-visit times are exact", "statement": "At every moment the recorded 'states last seen' time of a state is the largest step index at which the base machine was in that state, and a state without an entry was never visited.", "quantifier": "every machine stack and every number of loops", "why_tests_cant": "Chain and macro steps reconstruct times arithmetically; a test checks only some run lengths.", "anchors": ["Code/Macro/Turing_Machine.py:sim_limited (114-115)", "Code/Macro/Simulator.py:Simulator.step (198-215)"]}
{"id": "C13", "title": "Recurring states reported for in-place repeats really recur", "statement": "When a machine is proven infinite by an in-place repeat or an infinite chain step, the reported recurring states are exactly the states visited infinitely often.", "quantifier": "every machine and macro machine", "why_tests_cant": "Claim about the infinite tail of the run.", "anchors": ["Code/Macro/Simulator.py:Simulator.step (182-194)"]}
{"id": "C14", "title": "Reverse-engineering filter is sound", "statement": "If the reverse-engineering filter declares a machine infinite, the machine never reaches a halting or undefined transition from the blank tape.", "quantifier": "every machine table", "why_tests_cant": "Infinite behaviour, all machines.", "anchors": ["Code/Reverse_Engineer_Filter.py:is_infinite (71-81)", "Code/Reverse_Engineer_Filter.py:cannot_reach_halt (39-69)"]}
{"id": "C15", "title": "Backtracking filter is sound", "statement": "If backtracking reports success, the machine never reaches any of its halting or undefined transitions from the blank tape.", "quantifier": "every machine and every step and width limit", "why_tests_cant": "Infinite behaviour; the search is over partial configurations standing for infinitely many tapes.", "anchors": ["Code/Backtracking_Filter.py:backtrack_single_halt (114-150)", "Code/Backtracking_Filter.py:backtrack_ttable (152-183)"]}
{"id": "C16", "title": "Backtracking halting report is correct", "statement": "If backtracking reports that the machine halts, the machine does halt from the blank tape.", "quantifier": "every machine and limits", "why_tests_cant": "The verdict is reached backwards from partial configurations.", "anchors": ["Code/Backtracking_Filter.py:backtrack_single_halt (131-134)"]}
{"id": "C17", "title": "Linear recurrence verdict is sound", "statement": "If the recurrence detector reports start time s, period p and offset d, then for every t >= s the machine is still running at time t, is in the same state at t and t+p, and its head at t+p is exactly d further than at t; in particular it never halts.", "quantifier": "every machine and step limit", "why_tests_cant": "The detector compares two finite histories and concludes about all future times.", "anchors": ["Code/Lin_Recur_Detect.py:lin_detect_not_min (38-107)", "Code/Lin_Recur_Detect.py:are_half_tapes_equal", "Code/Lin_Recur_Detect.py:are_sections_equal"]}
{"id": "C18", "title": "Minimal recurrence start is minimal", "statement": "The binary search returns the smallest start time at which the recurrence with the given period holds, i.e. the check succeeds there and fails at every earlier time.", "quantifier": "every machine, period and upper bound for which the check succeeds", "why_tests_cant": "Relies on monotonicity of the check over all times.", "anchors": ["Code/Lin_Recur_Detect.py:check_recur (110-143)", "Code/Lin_Recur_Detect.py:period_search (149-160)"]}
{"id": "C19", "title": "Quasihalt data of recurrent machines is correct", "statement": "For a detected recurrence, the states reported as seen during the period are exactly the states visited infinitely often, and the reported quasihalt time is right: after it the quasihalting state is never visited again.", "quantifier": "every machine for which the detector reports a recurrence", "why_tests_cant": "Claim about all future visits.", "anchors": ["Code/Lin_Recur_Detect.py:lin_detect_not_min (77-107)", "Code/Halting_Lib.py:set_inf_recur (167-201)"]}
{"id": "C20", "title": "Closed position set filter is sound", "statement": "If the closed-position-set filter reports success, the machine never halts from the blank tape.", "quantifier": "every machine, block size, window size (at least twice the block size), step limits", "why_tests_cant": "Infinite behaviour; the abstract graph stands for infinitely many tapes.", "anchors": ["Code/CPS.py:ClosedGraphSim (84-239)", "Code/CPS.py:filter (297-313)"]}
{"id": "C21", "title": "CTL (A*) filter is sound", "statement": "If CTL1 reports success, the machine never halts from the blank tape.", "quantifier": "every machine, cutoff, block size, offset, with or without back symbol", "why_tests_cant": "Infinite behaviour over an abstract domain.", "anchors": ["Code/CTL1.py:CTL (26-79)", "Code/CTL1.py:test_CTL (87-108)"]}
{"id": "C22", "title": "CTL (A* B) filter is sound", "statement": "If CTL2 reports success, the machine never halts from the blank tape.", "quantifier": "every machine, cutoff, block size, offset, with or without back symbol", "why_tests_cant": "Infinite behaviour over an abstract domain.", "anchors": ["Code/CTL2.py:CTL (26-90)", "Code/CTL2.py:test_CTL (98-124)"]}
{"id": "C23", "title": "CTL (A B*) filter is sound", "statement": "If CTL3 reports success, the machine never halts from the blank tape.", "quantifier": "every machine, cutoff, block size, offset, with or without back symbol", "why_tests_cant": "Infinite behaviour over an abstract domain.", "anchors": ["Code/CTL3.py:CTL (20-65)", "Code/CTL3.py:test_CTL (73-102)"]}
{"id": "C24", "title": "CTL (A* B C) filter is sound", "statement": "If CTL4 reports success, the machine never halts from the blank tape.", "quantifier": "every machine, cutoff, block size, offset, with or without back symbol", "why_tests_cant": "Infinite behaviour; the initial abstraction has to cover the tape.", "anchors": ["Code/CTL4.py:CTL (20-76)", "Code/CTL4.py:test_CTL (84-136)"]}
{"id": "C25", "title": "Packed machine format round-trips", "statement": "Every machine that fits the packed format's documented bounds packs to one byte per transition and unpacks to the same machine; packing never silently produces a byte string that unpacks to a different machine: a machine out of bounds is rejected with an error.", "quantifier": "every machine table, including out-of-range ones", "why_tests_cant": "Bit packing over all combinations of symbols, directions, states and table shapes.", "anchors": ["Code/IO/TM_Record.py:pack_tm, unpack_tm, pack_trans_ints, unpack_trans_ints (40-91)"]}
{"id": "C26", "title": "Machines survive a write/read through the protobuf message", "statement": "Writing a machine into the protobuf message and reading it back yields the same machine, for every machine size the writer accepts.", "quantifier": "every machine table of every size", "why_tests_cant": "Three encodings are selected by size; sizes beyond the test samples take different branches.", "anchors": ["Code/IO/TM_Record.py:read_tm, write_tm, tm_to_list, tm_from_list (93-132)"]}
{"id": "C27", "title": "Standard text format round-trips", "statement": "Printing a machine with fewer than 25 states and fewer than 10 symbols in standard text format and parsing it returns the same machine, and parsing a well-formed text and printing it returns the same text; sizes outside the bounds print as the empty string.", "quantifier": "every machine table and every well-formed string", "why_tests_cant": "All tables of all sizes.", "anchors": ["Code/Macro/Turing_Machine.py:Transition.to_ttable_str, Simple_Machine.ttable_str", "Code/IO/TM_Record.py:parse_tm (14-37)"]}
{"id": "C28", "title": "Text record files: what is written is read back", "statement": "Reading a text record file returns exactly the machines written, in order, and record number n is the n-th one written.", "quantifier": "every sequence of records", "why_tests_cant": "Unbounded sequences; blank lines and record indexing.", "anchors": ["Code/IO/StdText.py:Writer.write_record, Reader.read_record, skip_record, load_record"]}
{"id": "C29", "title": "Binary record framing is robust", "statement": "A file of length-delimited records reads back as exactly the written sequence; a file truncated at any byte yields a prefix of the records, then end-of-file if cut at a record boundary and an error otherwise; skipping records is equivalent to reading and discarding them on complete files.", "quantifier": "every record sequence and every truncation point (crash point of the writer)", "why_tests_cant": "All crash points and sequences.", "anchors": ["Code/IO/Proto.py:Writer.write_record, Reader._read_message_len, read_record, skip_record, load_record"]}
{"id": "C30", "title": "Database reader addresses the right machine", "statement": "In the bbchallenge database format, reading machine number n returns the machine stored in the n-th 30-byte record, and decoding a stored transition inverts the format's encoding.", "quantifier": "every file and index", "why_tests_cant": "All byte contents and indexes.", "anchors": ["Code/IO/BBC.py:unpack_trans_ints, unpack_tm, Reader.skip_record, Reader.read_record, Reader.get_tm"]}
{"id": "C31", "title": "Big integers round-trip", "statement": "Storing an integer of any size and sign into the BigInt message and reading it back returns the same integer, and small values are stored as plain integers.", "quantifier": "every integer", "why_tests_cant": "Unbounded integers around the 64-bit border.", "anchors": ["Code/Halting_Lib.py:set_big_int (69-83), get_big_int (85-100)"]}
{"id": "C32", "title": "Status updates are coherent", "statement": "After any sequence of status updates of a record the halt and quasihalt flags are consistent: a machine marked halting is decided and marked as not quasihalting, a machine marked infinite is decided and non-halting, and a recurrence report sets the infinite flag.", "quantifier": "every sequence of status updates", "why_tests_cant": "Order of updates over all histories.", "anchors": ["Code/Halting_Lib.py:set_halting, set_not_halting, set_not_quasihalting, set_inf_recur (134-201)"]}
{"id": "C33", "title": "Child enumeration is exact, ordered and duplicate-free", "statement": "The children of a partial machine at the cell where it got stuck are precisely the machines that differ from the parent only in that cell, which is filled with each allowed transition exactly once: any direction (the very first transition goes right), any symbol up to the first unused one, any state up to the first unused one; there are none if the cell is the last undefined one, unless machines without a halting transition are allowed.", "quantifier": "every partial machine, cell and size limits", "why_tests_cant": "Combinatorial over all partial tables.", "anchors": ["Code/TM_Enum.py:TM_Enum.enum_children (43-86), set_trans, blank_tm_enum"]}
{"id": "C34", "title": "Enumeration is complete up to renaming", "statement": "For every total machine starting with '1RB' on the blank tape and any number of expansions, the enumeration tree contains a machine that is a restriction of a renaming of it and that runs in step with it until it gets stuck.", "quantifier": "every machine of the given size and every depth", "why_tests_cant": "Infinite family of machines, induction over the tree.", "anchors": ["Code/TM_Enum.py:TM_Enum.enum_children (43-86)", "Code/Enumerate.py:Enumerator.expand_undefined_transition"]}
{"id": "C35", "title": "Work queues neither lose nor duplicate jobs", "statement": "Over any history of push and pop operations the multiset of jobs popped plus the jobs still queued equals the multiset pushed; the LIFO queue returns the most recently pushed job, the FIFO queue the oldest. The statistics of the LIFO queue report the last, smallest and largest number of waiting jobs at the last report and before each operation since.", "quantifier": "every history of queue operations", "why_tests_cant": "All histories.", "anchors": ["Code/Work_Queue.py:Basic_LIFO_Work_Queue (25-66), Basic_FIFO_Work_Queue (69-85)"]}
{"id": "C36", "title": "The enumerator writes every machine exactly once", "statement": "In an enumeration run, every machine taken from the queue is written to the output exactly once, with its halting cell filled in if it halted; every machine pushed is eventually taken or, if a machine limit stops the run, drained to the output unrun; so what is written is exactly the initial machines plus the children of the machines that halted, and the queue ends up empty.", "quantifier": "every input, every decider outcome and every machine limit", "why_tests_cant": "All outcomes of the deciders and all stopping points.", "anchors": ["Code/Enumerate.py:Enumerator.continue_enum (79-117), run, add_result, expand_undefined_transition"]}
{"id": "C37", "title": "Stopping and resuming an enumeration loses nothing", "statement": "Stopping an enumeration after any number of machines and restarting it from the written output enumerates the same machines as an uninterrupted run.", "quantifier": "every stopping point and option setting", "why_tests_cant": "All stopping points; a per-record option is involved.", "anchors": ["Code/Enumerate.py:continue_enum, enum_initial_tms", "Code/IO/TM_Record.py:write_tm, read_tm", "Code/IO/io.proto:TuringMachine.allow_no_halt"]}
{"id": "C38", "title": "Parallel work distribution loses no job and terminates only when done", "statement": "In the master/worker protocol every job is at every moment in exactly one place (a worker, the master or in flight) until it is run once, and the master announces termination only when no job is left anywhere.", "quantifier": "every interleaving of the processes and messages (in-order delivery per channel)", "why_tests_cant": "All schedules.", "anchors": ["Code/MPI_Work_Queue.py:MPI_Worker_Work_Queue.pop_job (75-101), push_jobs, _send_extra", "Code/MPI_Work_Queue.py:MPI_Master.run_master (225-321)"]}
{"id": "C39", "title": "Parallel workers never crash on their own queue bookkeeping", "statement": "Sending surplus jobs to the master never raises an exception, whatever the queue sizes.", "quantifier": "every queue size and update history", "why_tests_cant": "Only reached after a queue-size update in a parallel run.", "anchors": ["Code/MPI_Work_Queue.py:_update_max_queue_size (129-135), _send_extra (137-146)"]}
{"id": "C40", "title": "Renaming a machine preserves its behaviour", "statement": "Permuting states and symbols and optionally mirroring directions yields a machine whose run is the renamed run of the original, step by step, when the blank symbol is kept; in particular halting, step counts and scores agree.", "quantifier": "every machine, every permutation and run length", "why_tests_cant": "All machines, permutations and times.", "anchors": ["Code/TNF.py:permute_table (17-52)"]}
{"id": "C41", "title": "Normal form conversion keeps the machine", "statement": "Conversion to tree normal form returns an isomorphic machine (up to renaming and mirroring), so halting behaviour is unchanged; converting twice gives the same result.", "quantifier": "every machine and step limit", "why_tests_cant": "All machines; the renaming depends on an unbounded run.", "anchors": ["Code/TNF.py:to_TNF (54-83)"]}
{"id": "C42", "title": "Lexical normal form is minimal and canonical", "statement": "The brute-force lexical normal form is the smallest table among all renamings it considers, is one of these renamings, and two machines related by a considered renaming get the same normal form.", "quantifier": "every machine", "why_tests_cant": "All machines and permutations.", "anchors": ["Code/LNF.py:permute (13-27), iter_perms (30-36), brute_lnf (39-51)"]}
{"id": "C43", "title": "Number theory helpers are correct", "statement": "gcd, lcm, prime factorisation, perfect-power detection, Carmichael function and modular exponentiation with huge exponents return the mathematically correct values.", "quantifier": "every positive integer argument", "why_tests_cant": "Infinite domain, number-theoretic reasoning.", "anchors": ["Code/Math.py:gcd, lcm, int_pow, prime_factor, carmichael, exp_mod (6-74)"]}
{"id": "C44", "title": "Algebraic expressions evaluate homomorphically", "statement": "Adding, subtracting, multiplying, raising to a power and substituting in expressions commute with evaluation at every assignment of the variables; equality of expressions implies equality of values.", "quantifier": "every expression and assignment", "why_tests_cant": "All polynomials.", "anchors": ["Code/Algebraic_Expression.py:Expression, term_sum, expr_prod, vars_prod"]}
{"id": "C45", "title": "Lower bounds of expressions are sound", "statement": "If always_ge(a,b) (always_gt) holds then the value of a is at least (greater than) the value of b at every assignment of natural numbers; the reported minimum is never above an attained value.", "quantifier": "every expression and natural assignment", "why_tests_cant": "Infinite assignments.", "anchors": ["Code/Algebraic_Expression.py:min_val, always_ge, always_gt, Expression.min_val"]}
{"id": "C46", "title": "Closed-form series sums are correct", "statement": "The closed form for the number of steps of N repetitions equals the sum of the per-repetition step counts.", "quantifier": "every step polynomial (degree at most 3 in the repetition index) and every N", "why_tests_cant": "All polynomials and N.", "anchors": ["Code/Macro/Proof_System.py:series_sum (1459-1483), factor_var (1442-1457)"]}
{"id": "C47", "title": "Exponential integers compute exactly", "statement": "Arithmetic on integers in the form (sum of a*b^n + c)/d - addition, subtraction, multiplication, division, remainder - gives the exact integer result, and normalisation does not change the value.", "quantifier": "every well-formed exponential integer", "why_tests_cant": "Numbers far too large to evaluate in a test.", "anchors": ["Code/Exp_Int.py:ExpInt, ExpTerm, normalize_terms"]}
{"id": "C48", "title": "A proven rule is valid for all run lengths", "statement": "Whenever the proof system (without recursion) proves a rule, then for all run lengths at or above the rule's minimum the machine goes from the initial configuration to the final configuration in exactly the stated number of steps.", "quantifier": "every machine, every configuration from which a rule is proven, all run lengths above the minimum", "why_tests_cant": "The rule is generalised from one symbolic run to all run lengths.", "anchors": ["Code/Macro/Proof_System.py:Proof_System.prove_rule (712-1016)"]}
{"id": "C49", "title": "Applying a rule is exact", "statement": "Applying a proven difference rule the computed number of times gives exactly the tape and step count that step-by-step simulation reaches, and every run length stays positive.", "quantifier": "every rule and configuration", "why_tests_cant": "All repetition counts.", "anchors": ["Code/Macro/Proof_System.py:Proof_System.apply_diff_rule (1070-1236)", "Code/Macro/Rule_Func.py:Subtract_Func.max_reps"]}
{"id": "C50", "title": "Infinite verdicts of the prover are sound", "statement": "When the prover (without recursion) reports that a rule applies forever, the machine never halts from that configuration.", "quantifier": "every machine, rule and configuration", "why_tests_cant": "Infinite behaviour.", "anchors": ["Code/Macro/Proof_System.py:apply_diff_rule (1168-1177), apply_general_rule (1348-1358, 1380-1385)"]}
{"id": "C51", "title": "Morphett format round-trips; old text format is the standard text with spaces", "statement": "Writing a machine in the Morphett format and reading the file back gives the same machine. The old text format (which has a writer only) shows exactly the cells of the standard text, separated by one space within a row and two between rows. A Morphett line is read as halting exactly if the name of its new state starts with 'halt' in any capitalisation.", "quantifier": "every machine within the format's bounds", "why_tests_cant": "All tables.", "anchors": ["Code/IO/Morphett.py", "Code/IO/OldText.py"]}
{"id": "C52", "title": "Counting and neighbourhood tools are exact", "statement": "The adjacent-machine generator yields, each once, exactly the machines of the same size that differ from the given one in a single running transition replaced by another running one (halting and undefined cells are never touched). The zero-reflexive test answers yes exactly if some way of filling the undefined cells makes a state stay in itself on reading the blank, and its program partitions the input by that answer. The count of an enumeration record is the number of complete machines (with one halting transition, or at most one with the option) that it stands for up to renaming, and over a whole enumeration run the counts add up to the number of machines that start with 1RB: none is lost or counted twice.", "quantifier": "every machine and size; every enumeration run with any decider, queue order and limit", "why_tests_cant": "All sizes.", "anchors": ["Code/Adjacent.py", "Code/Zero_Reflexive.py", "Code/Count.py"]}
{"id": "C53", "title": "Record file tools lose nothing", "statement": "Categorising a record file puts each record into exactly one category; sorting permutes the records and orders them by score; sampling returns records from the input, as many as requested when there are enough.", "quantifier": "every record sequence and random choices", "why_tests_cant": "All sequences and random seeds.", "anchors": ["Code/IO_Categorize.py", "Code/IO_Sort.py", "Code/IO_Sample.py"]}
{"id": "C54", "title": "Pipeline verdict is truthful", "statement": "When the filter pipeline marks a machine as infinite it never halts, and when it marks it as halting the machine halts with the reported step count and score.", "quantifier": "every machine and every option setting of the modelled pipeline", "why_tests_cant": "End-to-end claim over all machines and infinite behaviour.", "anchors": ["Code/Macro_Simulator.py:run_options (70-139), simulate_machine (141-240)"]}
{"id": "C55", "title": "Rule repetition functions are correct", "statement": "For each rule function (subtract, add, multiply, power) the function applied n times by the closed form equals n single applications, and the reported maximal repetition count is the number of applications until the value first drops below the minimum.", "quantifier": "every start value, minimum, constants and n", "why_tests_cant": "All values.", "anchors": ["Code/Macro/Rule_Func.py"]}
{"id": "C56", "title": "Block size search is harmless", "statement": "Whatever block size the automatic search returns, simulating with it gives the same halting verdict, step count and score as the base machine.", "quantifier": "every machine and every returned block size", "why_tests_cant": "All machines.", "anchors": ["Code/Macro/Block_Finder.py:block_finder (44-166)"]}
{"id": "C57", "title": "Recursive proofs are sound", "statement": "With recursive proofs switched on, whenever the simulator reports that a machine has halted, the machine started on the blank tape halts after exactly the reported number of steps with the reported score; whenever it reports that the machine runs for ever, it never halts; and while it reports that the machine is running, the configuration shown is one the machine really reaches.", "quantifier": "every machine (plain, block, back-symbol and both), every number of simulator loops", "why_tests_cant": "A rule that was itself proved with rules is applied to run lengths nobody has simulated; a wrong minimum or a wrong sum shows only on machines built for it.", "anchors": ["Code/Macro/Proof_System.py:prove_rule (712-1016)", "Code/Macro/Proof_System.py:apply_rule, apply_general_rule", "Code/Macro/Simulator.py"]}
{"id": "C58", "title": "Filter programs keep files right", "statement": "Running one of the filter programs (reverse engineering, backtracking, closed tape language, closed position set) over a file of records writes one record per record read, with the same machine and in the same order; if every status in the input is right, every status in the output is right; no verdict known before is forgotten; a record is changed only to mark its machine as infinite, exactly when the filter succeeded on it; and the program comes to the end of every file.", "quantifier": "every file of well-formed machines with right statuses, every combination of options, every iteration order of Python sets", "why_tests_cant": "The tests run each filter on a few sample files and compare counts; they do not feed records that already carry verdicts, and cannot cover all machines and options.", "anchors": ["Code/Reverse_Engineer_Filter.py:filter, main", "Code/Backtracking_Filter.py:backtrack, main", "Code/CTL_Filter.py", "Code/CPS_Filter.py", "Code/IO/TM_Record.py:clear_proto"]}
{"id": "C59", "title": "Comparisons and signs of exponential integers", "statement": "Comparing exponential integers with <, <=, >, >= orders them by value, and the sign of an exponential integer is the sign of its value.", "quantifier": "every pair of well-formed exponential integers and integers", "why_tests_cant": "The numbers cannot be evaluated; the comparison uses signs and approximate towers of logarithms, and whether it is consistent or right is a question about all numbers.", "anchors": ["Code/Exp_Int.py:ExpTerm.eval, ExpInt.eval, __gt__, __ge__, __lt__, __le__", "Code/Exp_Int.py:tower_value, sign, try_eval"]}
{"id": "C60", "title": "Limited rules are exact", "statement": "With the option --limited-rules a rule proved on one tape and cut down to the blocks its proof touched may be applied on every tape that agrees near the head: each application gives the configuration and the number of steps the machine itself reaches, the accelerated run has exactly the configurations, step counts and halting of the plain machine, and a verdict 'infinite' is right.", "quantifier": "every machine (plain, block, back-symbol and both macro layers), every rule the prover stores, every tape with the same blocks near the head, every number of loops, every order in which the candidate rules are tried", "why_tests_cant": "A cut-down rule is applied on tapes it was never proved on; that nothing beyond the cut is ever read is a statement about all tapes, and the trying order depends on the hash order of a Python set.", "anchors": ["Code/Macro/Proof_System.py:Limited_Diff_Rule", "Code/Macro/Proof_System.py:strip_config", "Code/Macro/Proof_System.py:Proof_System.log_and_apply, try_apply_a_limited_rule, add_rule", "Code/Macro/Proof_System.py:Proof_System.prove_rule, apply_rule, apply_diff_rule", "Code/Macro/Tape.py:Repeated_Symbol.id"]}
{"id": "C61", "title": "What the Rust rule validator accepts is true", "statement": "If the validator accepts a set of rules with their proofs, then each rule is true of the machine: for all values of the variables and all contents of the rest of the tape the machine gets from the initial configuration to the final one. The answer is the same in every build.", "quantifier": "every machine, every rule set (variables, functions, induction, earlier rules), every value of the variables, every tape around the rule", "why_tests_cant": "The tests accept about twenty fixed rule sets; whether a wrong one could be accepted is a statement about all rule sets, and what a rule says is a statement about all values of its variables.", "anchors": ["rust/src/validator.rs:validate_rule_set, validate_rule, validate_proof, apply_proof_step, try_apply_rule", "rust/src/count_expr.rs:VarSum, RecursiveExpr, CountExpr, CountOrInf", "rust/src/config.rs:HalfTape, Config", "rust/src/tm.rs:TM.trans"]}
{"id": "C62", "title": "The Rust rule validator reads what is written", "statement": "A machine, a count or a configuration that the validator prints is read back as the same one. A machine is accepted from one text only. A count is read as the sum of the terms written, and text that is not a count is rejected.", "quantifier": "every machine, count and configuration; every text; debug and release builds", "why_tests_cant": "The tests round-trip a few dozen fixed texts; they try hardly any text that should be rejected.", "anchors": ["rust/src/tm.rs:FromStr and Display for State, Dir, Transition, TM", "rust/src/count_expr.rs:FromStr and Display for Variable, VarSum, CountExpr, CountOrInf", "rust/src/config.rs:RepBlock, HalfTape to_string, from_str; FromStr and Display for Config"]}
{"id": "C63", "title": "The lazy beaver search prints the lazy beaver number", "statement": "The C++ program lb_enum comes to its end; the step counts it reports are exactly those that machines of the given size attain within the bound; the number it prints is the least number of steps that no machine of that size runs for, and \"Inconclusive\" means that all smaller numbers are attained. Each example it writes reads back as a machine of that size that halts after exactly that many steps. The parallel script (short run, machines split among processes in any way, merge) prints the same number as soon as a larger one is attained.", "quantifier": "every number of states from 2 to 25 and of symbols from 2 to 9, every bound, every distribution of the machines to processes; machines are all tables of that size", "why_tests_cant": "A test runs the search for a few small sizes and compares with known values. That nothing is missed is a statement about all machines of a size, which the search itself does not look at one by one: it leaves out renamed and mirrored ones and the continuations of those that have not halted.", "anchors": ["cpp/src/lb_enum.cpp", "cpp/src/lb_enum_continue.cpp", "cpp/src/lazy_beaver_enumerator.cpp:filter_tm, min_missing", "cpp/src/enumerator.cpp:enumerate, expand_tm", "cpp/src/turing_machine.cpp", "cpp/src/simulator.cpp", "cpp/scripts/merge_steps_examples.py", "cpp/scripts/lb_enum_local_parallel.sh"]}
{"id": "C64", "title": "The C++ linear recurrence detector is right and finds what it should", "statement": "The detector always comes to an answer. If it reports a recurrence, the machine never halts and, from the reported start on, is after each period in the same state at the same symbol, shifted by the reported offset; no smaller period would do from that start. If it reports halting, the machine halts after exactly that many steps at the reported cell. If it reports neither, the machine is still running at a step that is at least the limit. Every machine that halts within the limit and every recurrence whose start and period are at most a power of two below the limit is reported.", "quantifier": "every machine table of any size, every limit", "why_tests_cant": "Whether a machine never halts cannot be seen from running it; and that the comparison of parts of the tape suffices is a statement about all machines and tapes.", "anchors": ["cpp/src/lin_recur.cpp:LinRecurDetect, are_sections_equal, are_half_tapes_equal", "cpp/src/simulator.cpp", "cpp/src/tape.cpp"]}
{"id": "C65", "title": "The C++ enumeration with the linear recurrence detector misses nothing and its files are true", "statement": "lr_enum comes to its end. Each line in the file of halting machines reads back as a machine that halts after exactly the number of steps given; each line in the file of infinite machines as one that never halts and recurs with the period, offset and start given; each line in the file of unknown machines as one still running at the limit. Every complete machine whose first transition writes a non-blank symbol and leaves the initial state is, up to renaming and mirroring, an extension of a machine in one of the files, with the same halting time or never halting in the first two cases. The same holds of the parallel script, for every distribution of the machines to processes.", "quantifier": "every number of states from 2 to 25 and of symbols from 2 to 9, all limits, with and without machines that have no halting transition, every distribution to processes; machines are all tables of that size", "why_tests_cant": "Completeness is a statement about all machines of a size, most of which the program never looks at; a test can only compare counts for small sizes.", "anchors": ["cpp/src/lr_enum.cpp", "cpp/src/lr_enum_continue.cpp", "cpp/src/lin_recur_enumerator.cpp:filter_tm", "cpp/src/enumerator.cpp", "cpp/scripts/lr_enum_local_parallel.sh"]}
{"id": "C66", "title": "Linear rules applied at once (--exp-linear-rules) equal repeated application", "statement": "With --exp-linear-rules, applying a linear rule to a tape gives the tape that results from applying the rule one time after the other as often as its minima allow, and at least once; the rule is said to apply infinitely only if it can be applied any number of times, and not to apply only if its minima are not met; no exception is raised. Without the option the same tape results if the repetition limit allows it.", "quantifier": "every linear rule (any number of blocks, coefficients, constants, minima), every tape with number exponents however large, every number of repetitions", "why_tests_cant": "The tests run a handful of machines whose results are known; that closed forms, the choice of the limiting block and the minima agree with repeated application is a statement about all rules and exponents.", "anchors": ["Code/Macro/Proof_System.py:Linear_Rule, apply_linear_rule, config_fits_min, apply_general_rule", "Code/Macro/Rule_Func.py:Subtract_Func, Add_Func, Mult_Func"]}
{"id": "C67", "title": "Text files of machines mean the same to the Python, C++ and Rust programs", "statement": "The text of a machine is read as the same machine by the Python, C++ and Rust readers, and each program writes back the same text. Python and C++ read a file of such lines, with or without remarks after a space, as the same machines in the same order; line numbers of the C++ programs count from 1. direct_sim reports exactly whether and when the machine in a line halts within the given number of steps; lin_recur reports only what is true; direct_sim_all writes the same machines in the same order, each with a true remark, and true totals; its file can be read again by Python and by C++, and running it again on its own output gives the same output. The three files written by lr_enum can be read by Python as the machines that C++ reads.", "quantifier": "all tables with 1 to 24 states and 2 to 9 symbols, all files of them with all remarks, all line numbers, all numbers of steps", "why_tests_cant": "Agreement of three parsers written in three languages on all machines and all files; tests cover single machines in one language.", "anchors": ["cpp/src/turing_machine.cpp:ReadTuringMachine", "cpp/src/turing_machine.cpp:WriteTuringMachine", "cpp/src/direct_sim.cpp", "cpp/src/direct_sim_all.cpp", "cpp/src/lin_recur_main.cpp", "Code/IO/StdText.py", "rust/src/tm.rs"]}
{"id": "C68", "title": "Quick_Sim reports only what is true of the machine, and finds every halt within its limits", "statement": "Whatever the options are (block size given or searched, back symbols, proof system, frozen proof system, steps, quiet or with output, limits): if Quick_Sim says that the machine halted or reached an undefined transition, the machine does so after exactly the number of steps and with exactly the nonzeros printed, in the cell printed; if it says that the machine is infinite, the machine never halts and what is said about quasihalting is right; if it stops without verdict or gives up, the totals printed are those of the machine after some number of steps. If the machine halts after n steps and there is no limit of loops or one of at least n, the program ends, and not without a verdict. It stops without verdict only at the limit of loops.", "quantifier": "all tables, all option values, all limits", "why_tests_cant": "The report is the result of an unbounded search for rules and of a run of unbounded length; tests compare single known machines.", "anchors": ["Code/Quick_Sim.py:run", "Code/Macro/Simulator.py:loop_seek", "Code/Macro/Proof_System.py:log_and_apply (frozen)"]}
{"id": "C69", "title": "The recurrence detector misses nothing it could see, and the C++ detector answers the same", "statement": "With limit N (or none), the Python recurrence detector reports every machine that halts within N steps, and every recurrence whose start and period are at most a power of two below N. The reported period is the least with which the history of the machine is periodic from any step on; with the search for the start, the reported start is the least step from which the history is periodic at all. Without a limit the detector ends exactly if the machine halts or its history becomes periodic. A verdict does not change with a higher limit. The C++ detector gives the same answer for the same machine and limit (at least 2): same halting step and cell, same start, period and offset, or both give up.", "quantifier": "all tables, all limits, all periods and starts", "why_tests_cant": "Completeness speaks about all recurrences of all machines, and the agreement of two programs about all machines; tests compare single machines.", "anchors": ["Code/Lin_Recur_Detect.py:lin_detect_not_min", "Code/Lin_Recur_Detect.py:filter", "cpp/src/lin_recur.cpp:LinRecurDetect"]}
{"id": "C70", "title": "Counting and finding records", "statement": "Counting reports for every complete file the number of its records, and the sum as the total. Searching files for the text of a machine reports the first file and the first record in it with that machine, and reports 'not found' only if no record has it. The two search tools agree on every file, cut or not, for every machine with a packed form; on a text file written by the tools the line of the first record with the machine is found. Where a command takes a machine, the text of a machine always means that machine, `name:n` means the machine of record n of the file, and `name` the first one. A file that is cut short: a search looks at all complete records and fails with an error if the cut is inside a record; the count is right if the cut is between records or inside the four bytes of a length (reported as an error), but one too high, without an error, if the cut is inside the data of a record.", "quantifier": "all record lists, all machines, all numbers of files, all places of a cut", "why_tests_cant": "The place of a cut and of the first match, and duplicates across files, range over all files; tests look at a few small files.", "anchors": ["Code/IO_Count.py:main", "Code/IO_Find.py:main", "Code/Find_Record.py:find", "Code/IO/General.py:get_tm", "Code/IO/Proto.py:skip_record"]}
{"id": "C71", "title": "The statistics over record files are right", "statement": "Every number in the report of the analysis program is what it says: the total is the number of records in all files, which is the sum of unknown, halting and infinite ones; each reason and each filter has the number of records with it, and the reasons add up; the largest number of steps and score are those of the halting records; for each number that filters leave in records, count, sum, least, greatest and mean are over the records that have a number other than 0 there. The report does not depend on the order of the records or their distribution over files, nor on intermediate reports. A file that is cut off contributes its complete records and the other files are read as usual. There is a report whenever there are records and everything can be read -- except that the program fails if no record has a log10_num_steps other than 0 (a minimum of nothing is printed as an integer), or a reason has no name.", "quantifier": "all record lists, all distributions over files, all statuses, all frequencies of intermediate reports", "why_tests_cant": "The counters depend on all records of all files, with any combination of statuses and missing fields.", "anchors": ["Code/TM_Analyze.py:add_record", "Code/TM_Analyze.py:Stat", "Code/TM_Analyze.py:BigIntStat", "Code/TM_Analyze.py:print", "Code/TM_Analyze.py:main"]}
{"id": "C72", "title": "Converting files keeps the machines, in the formats that can be converted", "statement": "The conversion program takes the format of a file from the extensions of its name. Converting to text, from any format that can be read: the number of records is reported, the output has one line per record in order, the standard text of the machine and a remark if it is known to halt, no other file changes, and reading the output gives the same machines. Converting to the binary format, compressed or not, keeps every record with all that is known about it (text and bbchallenge files know nothing), and machines of up to 7 states and 8 symbols are the same. Copying a binary file gives the same bytes. A single machine converted to the Morphett format is read back, under the conditions of C51. Success means that the input was read to its end. Not every conversion that is offered works: index files and files of the old text format cannot be read, bbchallenge formats cannot be written, compressed text can be neither read nor written, several machines in a Morphett file are read as one, a file converted into itself is emptied while success is reported, a failing conversion has already overwritten the output, and the old text format has no place for some reasons of non-halting, scores that are not plain integers, and machines of more than 7 states.", "quantifier": "all files, file names, formats given or detected, records and machines of the stated sizes", "why_tests_cant": "Formats, names, machines and record contents combine without bound, and several of the combinations are accepted but lose data.", "anchors": ["Code/IO_Convert.py:Detect_Format", "Code/IO_Convert.py:get_reader", "Code/IO_Convert.py:get_writer", "Code/IO_Convert.py:main", "Code/IO/General.py:guess_module", "Code/IO/StdText.py:Writer", "Code/IO/Proto.py:Writer", "Code/IO/Morphett.py:Writer", "Code/IO/OldText.py:ReaderWriter", "Code/IO/BBC.py:Reader"]}
{"id": "C73", "title": "Exponential rules are applied rightly", "statement": "When the prover turns a proved rule into an exponential rule (every changing run length x becomes c x + k or (a b^(u x + v) + c)/d in its own x only), then on every tape: if it says the rule does not apply, the minima it requires are not met; if it applies the rule, the new tape is exactly that of one to max_num_reps single applications of the proved rule, and fewer than max_num_reps only if it cannot be applied once more; if it says the rule applies for ever, the proved rule can indeed be applied any number of times in a row, so the machine never halts, and the states reported are those of the rule. The minima are never below those of the proved rule. (Found: with exponent 0 a run length becomes a float, and a rounded logarithm can make the verdict wrong.)", "quantifier": "all rules (any number of blocks, any coefficients, bases and exponents), all tapes, all limits on repetitions, all values of the floating point logarithms (assumed right at the minimum for the verdict of infinity only)", "why_tests_cant": "The verdict is about infinitely many applications with numbers that grow like towers of powers; the minimum is found by floating point logarithms, and no sample of rules shows that the function increases from there on.", "anchors": ["Code/Macro/Proof_System.py:200", "Code/Macro/Proof_System.py:239", "Code/Macro/Proof_System.py:1307", "Code/Macro/Proof_System.py:1336", "Code/Macro/Rule_Func.py:98", "Code/Macro/Exp_Int.py:346"]}
{"id": "C74", "title": "The filter scripts lose no machine", "statement": "A run of filter.sh touches only the directory of its filter; if anything fails up to the categorising, unknown.pb stays as it was; otherwise unknown.pb holds exactly the undecided records of the filter's output and the category files exactly the decided ones. Over any sequence of successful runs in different directories every measure that the filters keep (the number of records, the number of machines they stand for, the multiset of machines) is conserved between the first unknown.pb and the last one together with the decided records. The scripts for a cluster succeed exactly if every job does, and then the count of the machines before is the count over the combined files plus the records that are not combined. (Found: the size test compares strings, so unknown.txt is rewritten for seven sizes only; using a directory twice, or repeating a run that failed after unknown.pb was replaced, loses machines; the cluster scripts do not combine halt.unk.pb and qhalt.unk.pb; their check of the count does not notice lost machines without halting transitions and undefined cells.)", "quantifier": "all directories, all filters (succeeding, failing or writing damaged files), all sequences of runs, all splittings, all records", "why_tests_cant": "The loss of a machine among millions over a sequence of filters is invisible in the output of any run; conservation has to hold for every filter and every order.", "anchors": ["Tools/filter.sh:22", "Tools/filter.sh:35", "Tools/filter.sh:40", "Tools/sbatch_filter_array.sh:36", "Tools/sbatch_filter_finish.sh:26", "Tools/sbatch_filter_finish.sh:34", "Code/IO_Categorize.py:82", "Code/Count.py:77"]}
{"id": "C75", "title": "Exponential integers stay in normal form and survive structured storage", "statement": "Every number that a program can get from integers by exp_int, +, *, -, exact and floor division is in normal form at every depth: lowest terms, positive denominator, one base of at least 2 that is not a power, coefficients that the base does not divide, no exponents that are integers up to 0. Making a term or a sum again from the parts of a number in normal form gives the same parts. An ExpInt can be stored in a structured message exactly if its denominator and its bases fit into 64 bits (otherwise ValueError is raised), and reading the message gives the same structure; reading understands every way in which a message can describe a number (old and new fields, hexadecimal text, pickles, structured exponents), and what it returns is in normal form whatever the message says.", "quantifier": "all numbers (arbitrarily nested), all sequences of operations, all messages", "why_tests_cant": "The normal form is an invariant over all sequences of operations on unboundedly nested values; comparisons and the detection of equal terms rely on it for numbers far too large to evaluate.", "anchors": ["Code/Exp_Int.py:127", "Code/Exp_Int.py:254", "Code/Exp_Int.py:281", "Code/Exp_Int.py:225", "Code/Halting_Lib.py:85", "Code/Halting_Lib.py:103", "Code/Halting_Lib.py:114"]}
{"id": "C76", "title": "Algebraic expressions survive printing and reading", "statement": "Printing an expression with integer numbers and reading the text gives the same expression, so different expressions are printed differently. A text of sums and differences (with or without parentheses, any spacing around +, the number last) means what it says if it has at most one minus sign after the last plus sign; a subtraction before a plus sign is refused with ValueError; a text with a visible Fraction is refused with ValueError, and a Fraction that is not printed comes back as an integer. (The claim for all texts is false: two or more minus signs after the last plus sign are all dropped, a double minus raises IndexError, two powers in one word are both ignored, a number that is not last becomes a term without variables.)", "quantifier": "all expressions (any number of terms, variables, powers, numbers), all texts of the grammar of sums", "why_tests_cant": "The tests read a handful of texts; the separation of texts into correctly read, refused and misread needs an argument about unboundedly many summands, spaces and digits.", "anchors": ["Code/Algebraic_Expression.py:78", "Code/Algebraic_Expression.py:89", "Code/Algebraic_Expression.py:120", "Code/Algebraic_Expression.py:139", "Code/Algebraic_Expression.py:152", "Code/Algebraic_Expression.py:177", "Code/Algebraic_Expression.py:311"]}
{"id": "C77", "title": "The printed formula of an exponential integer has its value", "statement": "str(x) and tex_formula(x) of a number, read by the ordinary rules of arithmetic (precedence of ^, *, / and +, parentheses, TeX fractions and exponents), have exactly the value of the number; a text has at most one value; and numbers whose texts (or TeX formulas) agree have the same structure in the sense of struct_eq, so a formula in a record determines the number.", "quantifier": "all well-formed numbers of any nesting depth, any number of terms, any coefficients, constants and denominators", "why_tests_cant": "The numbers are far too large to evaluate, so a test can only compare strings; missing parentheses or an ambiguous layout would show only for certain nestings.", "anchors": ["Code/Exp_Int.py:34", "Code/Exp_Int.py:141", "Code/Exp_Int.py:268", "Code/Exp_Int.py:353", "Code/Exp_Int.py:356"]}
{"id": "C78", "title": "Symbolic exponential integers compute the function they stand for", "statement": "An exponential integer whose exponents contain variables stands for a function of these variables. exp_int, +, -, *, negation and / by an integer give the pointwise results at every assignment; substitute gives the value at the assignment (for numbers, exponential or not, and for expressions); min_val is the least value over all natural numbers and is attained where all variables are zero; no variable outside variables() has an influence. What is accepted is limited: an exponent must have positive coefficients and a positive constant, so 2^x and 2^(5-x) raise, symbolic numbers cannot be multiplied with one another or added to large constants, and where terms cancel substitute returns a float.", "quantifier": "all bases, coefficients, constants, denominators, numbers of terms and polynomial exponents with integer coefficients, all integer assignments, all substitutions, everything a program can make by the operations", "why_tests_cant": "A function of unboundedly many arguments is represented by a formula; a test compares it at a few points, and the minimum is a claim about all of them.", "anchors": ["Code/Exp_Int.py:19", "Code/Exp_Int.py:183", "Code/Exp_Int.py:197", "Code/Exp_Int.py:328", "Code/Exp_Int.py:346", "Code/Exp_Int.py:397", "Code/Exp_Int.py:423", "Code/Exp_Int.py:458"]}
{"id": "C79", "title": "Comparing, splitting and sampling files of lines loses nothing", "statement": "venn_diff.py: for files with complete lines, of which no line of the left file is repeated in the right file, the three output files partition the lines: the lines of the right file that are in the left one (in order), the others of the right file (in order, as often as there), and the lines only in the left file, each once; otherwise the program fails with an exception, and it fails in no other case. shuffle_split.py: for a file with complete lines and every result of shuffling, the k files together have exactly the lines of the file, and each has a k-th of them, rounded down or up, although the bounds are computed in floating point; so the parallel enumerations that use it miss no machine. Random_Sample.py: the output has exactly the lines with the random numbers; if the file is as long as was said, it is a sample of the requested size, in order, without repetition. An incomplete last line is glued to another one by shuffle_split.py and not recognised by venn_diff.py.", "quantifier": "all files, all orders of sets, all permutations, all numbers of chunks and of lines up to 2^48 chunks times lines, every monotone rounding with relative error at most 2^-53, all ascending line numbers", "why_tests_cant": "The outcome depends on a random permutation, on the iteration order of a set and on rounding of floating point numbers; tests sample a few of them.", "anchors": ["Tools/venn_diff.py:13", "cpp/scripts/shuffle_split.py:17", "Code/Random_Sample.py:22", "cpp/scripts/lr_enum_local_parallel.sh:1", "cpp/scripts/lb_enum_local_parallel.sh:1"]}
{"id": "C80", "title": "The visual simulators show the run of the machine", "statement": "Visual_Simulator.py: a start configuration such as `1 23^8 21 <B 0^6 12^7 1` is read as the tape, state and head position it means; without a head it is refused. For machines with at most 52 states and 7 symbols a terminal that interprets the colour sequences shows one line for every step asked for by --print (all, leftmost, rightmost), in order, with the step number, for every position of the window the colour of its symbol and the letter of the state where the head is, and the message with the halting step; the program ends exactly when the machine halts; a line has the width asked for. Curses_Sim.py: after any keys the screen shows in every line and column the symbol and head of the right step and position; the keys move the view as they say; for machines that never halt no key hangs. The claims 'every key is answered' and 'every machine can be shown' are false: if the machine has halted before the lines to be shown, a vertical key hangs the program, and if the tape reaches the right edge of the buffer in its last line the program stops with an exception (both proved, with conditions under which neither happens).", "quantifier": "all machines, start configurations, options, numbers of steps, sequences of keys, screen and buffer sizes (buffer at least as high and twice as wide as the screen)", "why_tests_cant": "What is shown depends on the whole run and on all earlier keys (enlarging the pad, simulating anew); tests look at a few screens.", "anchors": ["Code/Visual_Simulator.py:23", "Code/Visual_Simulator.py:69", "Code/Visual_Simulator.py:95", "Code/Curses_Sim.py:75", "Code/Curses_Sim.py:89", "Code/Curses_Sim.py:109", "Code/Curses_Sim.py:130", "Code/Curses_Sim.py:139"]}
{"id": "C81", "title": "Printed transition tables show the machine; converted tables are the machine", "statement": "TM_Print.py (markdown) and the table the simulators print: cut at the bars, the text has the numbers of the symbols as head and one row for every state with, for each symbol, the written symbol, direction and next state, Z for halting and --- for an undefined transition; all lines of the drawn table are equally long (at most ten symbols); different machines have different tables; printing fails exactly for more than 71 states or written symbols above 10. IO_CGA_to_Morphett.py: a sheet of words with blanks and comments is read as the machine it describes, and the Morphett file written is read back as that machine. Convert_Format.py: a Marxen2 file with one machine becomes the table of its transitions. Unrestricted these are false (all proved): from 26 states on a step to state Z prints like halting; an unknown direction in a sheet silently becomes a move to the right; in a Marxen2 file H becomes state 7, a second machine raises an exception, an empty last line becomes a state, and a file without a line for A makes the program loop for ever.", "quantifier": "all machines with at most 70 states and written symbols up to 10; all sheets, spacings and comments; all Marxen2 files", "why_tests_cant": "Whether two machines can print alike depends on all names at once, and the converters accept unboundedly many layouts; tests print one machine and read the file back by eye.", "anchors": ["Code/TM_Print.py:12", "Code/Macro/Turing_Machine.py:191", "Code/IO_CGA_to_Morphett.py:12", "Machines/Tools/Convert_Format.py:1"]}
{"id": "C82", "title": "Whole simulations with --recursive --exp-linear-rules tell the truth", "statement": "With --recursive --exp-linear-rules, where a proved linear rule is applied with all its repetitions at once, the simulator's report is true of the machine at every loop: while running, the tape and score shown are those of a configuration the machine really reaches; if it reports that the machine has halted (or met an undefined transition), the machine halts, with the tape, score and last transition shown; if it reports an infinite run by a rule or chain step, the machine never halts and visits exactly the reported states again and again. Unrestricted this is false (proved): a rule proved with the help of rules is applied below the exponents of its proof, and a machine that never halts is reported to halt. It is true for the simulator that keeps the exponents of the proof as minima and removes empty blocks, and for every run of the code that is the same as one of that simulator.", "quantifier": "all transition tables, all four stacks of macro machines, all options, every number of loops", "why_tests_cant": "A linear rule jumps over exponentially many steps, so no test can run the machine to the configuration shown; whether a verdict is true depends on all rules proved before, on their minima and on the exponents met.", "anchors": ["Code/Macro/Proof_System.py:Linear_Rule, apply_linear_rule, log_and_apply, prove_rule", "Code/Macro/Simulator.py:step", "Code/Macro/Rule_Func.py:Subtract_Func, Add_Func, Mult_Func"]}
{"id": "C83", "title": "The certificate printed by the closed position set filter is a complete proof", "statement": "When the closed position set filter succeeds, the text printed with --savask-cert can be read back without knowledge of the program: it lists pairs of blocks for the left and the right half of the tape and windows with a head, all of the sizes asked for. What it lists is an inductive invariant of the machine: the blank tape is described by it, and from every configuration described by it (a listed window, continued on both sides by blocks that are listed as following each other) the machine comes, after one step or more, to another configuration described by it, or runs for ever inside the window. Any text with this property, whatever its origin, shows that the machine never halts. Two successful runs for the same machine and sizes print the same text, whatever the limits and the order in which sets are gone through; and if some run succeeds, any other run fails only by exceeding its steps or reaching its limit of rounds, windows or pairs. With large enough limits, every run succeeds if one does, with the same text. The number of edges reported is the number of pairs in the text, without the two of blanks with which the run begins. The number of configurations reported is at least the number of windows in the text, without the first. Without success, the text is Nothing. This needs one-digit symbols and at most 70 states: otherwise printing raises or the text cannot be read (proved with examples).", "quantifier": "all transition tables with one-digit symbols and at most 70 states, all block sizes, all windows of at least two blocks, all limits, all iteration orders of sets", "why_tests_cant": "A certificate describes infinitely many configurations with infinite tapes; tests can compare texts for some machines, not show that every configuration described leads to another one.", "anchors": ["Code/CPS.py:ClosedGraphSim.savask_cert", "Code/CPS.py:Config.__str__", "Code/CPS.py:block_to_str", "Code/CPS.py:ClosedGraphSim.run", "Code/Macro/Turing_Machine.py:Simple_Machine_State.__str__"]}
{"id": "C84", "title": "The depth and width reported by the backtracking filter are exactly the limits it needs", "statement": "If the backtracking filter succeeds for a machine, the steps and width it reports are within the limits given (a width limit of 0 counts as 1), and they are exactly the limits needed: run with other limits (a width of at least 1) it succeeds if and only if the steps and the width allowed are at least those reported, and it then reports the same in every field. Any conclusive answer, success or that the machine halts, is the same for all larger limits. An inconclusive answer has one of three reasons: a state with a halting or undefined transition also has a transition to itself, all steps allowed were used, or the width reported exceeds its limit. The number of nodes reported with a success is at least the steps reported, and at most steps times width for every halting or undefined transition.", "quantifier": "all transition tables, all numbers of states and symbols, all limits on steps and width, and all pairs of limits compared", "why_tests_cant": "It compares runs for every pair of limits and every machine; tests see a few limits for a few machines.", "anchors": ["Code/Backtracking_Filter.py:backtrack_ttable", "Code/Backtracking_Filter.py:backtrack_single_halt", "Code/Backtracking_Filter.py:BacktrackResult.merge"]}
{"id": "C85", "title": "The closed tape language filters come to an end", "statement": "The four closed tape language filters repeat rounds until a table no longer changes, and test_CTL sets no time limit. Each of them comes to an answer for every machine, after a number of rounds that is bounded by the number of symbols and states of the machine (or macro machine) it runs on. The answer is that of any sufficiently large limit on the number of rounds.", "quantifier": "all machines with finitely many transitions, all block sizes and offsets, with and without back symbol, all cutoffs, all configurations the simulator comes to", "why_tests_cant": "Tests cannot show that a loop without limit ends for every machine; a test that hangs cannot be told from a slow one.", "anchors": ["Code/CTL1.py:CTL", "Code/CTL2.py:CTL", "Code/CTL3.py:CTL", "Code/CTL4.py:CTL", "Code/CTL1.py:test_CTL"]}
