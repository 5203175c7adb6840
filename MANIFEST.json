{
 "claims": [
  {
   "property": "C01",
   "status": "proved",
   "theorems": [
    "Verif.Arr.C01_array_is_list"
   ],
   "note": "All histories of push, push_unique, erase, clear, merge, clone."
  },
  {
   "property": "C02",
   "status": "partial",
   "theorems": [
    "Verif.PtrSet.C02_membership_partial",
    "Verif.PtrSet.C04_insert_never_fails",
    "Verif.PtrSet.C02_violated",
    "Verif.PtrSet.C02_count_violated"
   ],
   "note": "Proved for histories that never re-insert a present key after a delete; the code violates the full property (tombstone reuse duplicates a key)."
  },
  {
   "property": "C03",
   "status": "partial",
   "theorems": [
    "Verif.PtrSet.C03_clone",
    "Verif.PtrSet.C03_add",
    "Verif.PtrSet.C03_minus",
    "Verif.PtrSet.C03_iteration",
    "Verif.PtrSet.C03_union_partial",
    "Verif.PtrSet.C03_intersec_partial",
    "Verif.PtrSet.C03_union_violated_empty",
    "Verif.PtrSet.C03_union_violated_31"
   ],
   "note": "clone, add, minus and iteration in full; union and intersection when the result size is not a multiple of 31 (violated otherwise)."
  },
  {
   "property": "C04",
   "status": "proved",
   "theorems": [
    "Verif.PtrSet.C04_insert_never_fails",
    "Verif.PtrSet.C04_violated_size31"
   ],
   "note": "Every history from every size that is not a multiple of 31, in particular the default 8 (the property); C04_violated_size31 shows the hypothesis is needed for other sizes."
  },
  {
   "property": "C05",
   "status": "proved",
   "theorems": [
    "Verif.GenBB.C05_readback",
    "Verif.Lift.C05_loadimm"
   ],
   "note": "Encoding and reading back the slots of any instruction list; a wide load of every kind is lifted to the same load."
  },
  {
   "property": "C06",
   "status": "proved",
   "theorems": [
    "Verif.Emit.C06_emission"
   ],
   "note": "For every list of translated blocks whose relocation succeeds; writing never leaves the array."
  },
  {
   "property": "C07",
   "status": "partial",
   "theorems": [
    "Verif.Emit.C07_jump_partial",
    "Verif.Emit.C07_violated"
   ],
   "note": "All jumps whose distance fits 16 bits; longer jumps are silently truncated (violated for every distance from 32768 on)."
  },
  {
   "property": "C08",
   "status": "partial",
   "theorems": [
    "Verif.Layout.C08_layout_partial",
    "Verif.Layout.C08_result",
    "Verif.Layout.C08_succ",
    "Verif.Layout.C08_violated_duplicate",
    "Verif.Layout.C08_violated_entry",
    "Verif.Layout.C08_violated_cycle"
   ],
   "note": "All well-formed finite graphs; graphs with two fall-through predecessors, a fall-through into the entry or a fall-through cycle violate it."
  },
  {
   "property": "C09",
   "status": "partial",
   "theorems": [
    "Verif.Emit.C09_refinement_partial"
   ],
   "note": "Forward and backward simulation including divergence, for the layout of C08 and instructions outside the witnessed exclusions of C10-C14, up to 32768 slots."
  },
  {
   "property": "C10",
   "status": "partial",
   "theorems": [
    "Verif.Norm.C10_alu_partial",
    "Verif.Norm.C10_no_wrong_code_partial",
    "Verif.Norm.C10_violated_add0",
    "Verif.Norm.C10_violated_sub_self",
    "Verif.Norm.C10_violated_refused"
   ],
   "note": "Proved for every operation, width, aliasing pattern and register content except the patterns the code gets wrong (32-bit add of 0, r = r - r in place, refused non-commutative aliasing), each witnessed."
  },
  {
   "property": "C11",
   "status": "partial",
   "theorems": [
    "Verif.Norm.C11_branch_partial",
    "Verif.Norm.C11_supported",
    "Verif.Norm.C11_violated_const_const"
   ],
   "note": "All comparisons, widths and placements; excluded only a 32-bit comparison of two constants one of which is 64-bit (violated)."
  },
  {
   "property": "C12",
   "status": "partial",
   "theorems": [
    "Verif.Norm.C12_assign_partial",
    "Verif.Norm.C12_supported",
    "Verif.Norm.C12_violated_const64_to_stack",
    "Verif.Norm.C12_violated_stack_to_stack",
    "Verif.Norm.C12_violated_assign32"
   ],
   "note": "All placements except the three the code gets wrong, each witnessed."
  },
  {
   "property": "C13",
   "status": "partial",
   "theorems": [
    "Verif.Norm.C13_return_partial",
    "Verif.Norm.C13_supported",
    "Verif.Norm.C13_violated_const64",
    "Verif.Norm.C13_violated_stack"
   ],
   "note": "Registers and 32-bit constants; 64-bit constants and stack slots are violated."
  },
  {
   "property": "C14",
   "status": "partial",
   "theorems": [
    "Verif.Norm.C14_unary",
    "Verif.Norm.C14_unary_supported",
    "Verif.Norm.C14_getelemptr_partial",
    "Verif.Norm.C14_store_partial",
    "Verif.Norm.C14_load_partial",
    "Verif.Norm.C14_loadraw_partial",
    "Verif.Norm.C14_storeraw_partial",
    "Verif.Norm.C14_loadimm_call",
    "Verif.Norm.C14_violated_neg_stack",
    "Verif.Norm.C14_violated_getelemptr_stack",
    "Verif.Norm.C14_violated_load_narrow",
    "Verif.Norm.C14_violated_loadraw_const",
    "Verif.Norm.C14_violated_storeraw_const64"
   ],
   "note": "Every successful compilation is correct outside the witnessed exclusions."
  },
  {
   "property": "C15",
   "status": "partial",
   "theorems": [
    "Verif.GenBB.C15_partition_partial",
    "Verif.GenBB.C15_violated_jump_to_start",
    "Verif.GenBB.C15_violated_long"
   ],
   "note": "All legal programs up to 32768 slots without a jump to slot 0; both exclusions are witnessed violations."
  },
  {
   "property": "C16",
   "status": "partial",
   "theorems": [
    "Verif.GenBB.C16_edges_partial",
    "Verif.GenBB.C16_machine_partial",
    "Verif.GenBB.C15_violated_jump_to_start"
   ],
   "note": "Same conditions as C15."
  },
  {
   "property": "C17",
   "status": "partial",
   "theorems": [
    "Verif.Lift.C17_alu_partial",
    "Verif.Lift.C17_violated_mov32",
    "Verif.Lift.C17_violated_mov32_imm"
   ],
   "note": "All arithmetic, moves, swaps, immediates, except 32-bit register moves and negative 32-bit immediate moves, which the code gets wrong."
  },
  {
   "property": "C18",
   "status": "partial",
   "theorems": [
    "Verif.Lift.C18_memory_partial",
    "Verif.Lift.C18_violated_memsx"
   ],
   "note": "All loads and stores except sign-extending loads, which the code lifts as plain loads."
  },
  {
   "property": "C19",
   "status": "partial",
   "theorems": [
    "Verif.Lift.C19_no_drop_partial",
    "Verif.Lift.C19_violated_zero_opcode"
   ],
   "note": "Every program the lifter accepts; only slots with opcode 0 can be dropped (witnessed)."
  },
  {
   "property": "C20",
   "status": "partial",
   "theorems": [
    "Verif.Lift.C20_reaching_partial",
    "Verif.Lift.C20_from_partial",
    "Verif.Lift.C20_result_partial",
    "Verif.Lift.C20_violated_dead_predecessor",
    "Verif.Lift.C20_violated_loop_to_start",
    "Verif.Lift.C20_violated_r10"
   ],
   "note": "Simulation for all well-shaped programs up to 32768 slots made of instructions lifted faithfully; exclusions are witnessed."
  },
  {
   "property": "C21",
   "status": "partial",
   "theorems": [
    "Verif.Edit.C21_users_partial",
    "Verif.Edit.C21_no_dangling_partial",
    "Verif.Edit.C21_violated_lift",
    "Verif.Edit.C21_violated_self"
   ],
   "note": "proved for all edit sequences starting from consistent lists; the lifter itself registers a user once only, and replacing a value by itself duplicates users (witnesses)"
  },
  {
   "property": "C22",
   "status": "proved",
   "theorems": [
    "Verif.Edit.C22_symmetry",
    "Verif.Edit.C22_symmetry_edits"
   ],
   "note": "all sequences of graph edits, including failed splits"
  },
  {
   "property": "C23",
   "status": "partial",
   "theorems": [
    "Verif.Edit.C23_split_partial",
    "Verif.Edit.C23_violated_phi"
   ],
   "note": "proved when successors have no phis; phi labels of successors are not updated by a split (witness)"
  },
  {
   "property": "C24",
   "status": "proved",
   "theorems": [
    "Verif.Check.C24_checker",
    "Verif.Check.C24_gap_assign",
    "Verif.Check.C24_gap_phi"
   ],
   "note": "iff for every function and list of reachable blocks; two gaps of the rules themselves are witnessed (moves and phi labels are not checked)"
  },
  {
   "property": "C25",
   "status": "proved",
   "theorems": [
    "Verif.Dead.C25_deadElim"
   ],
   "note": "For every function whose user lists are sound (a user is listed at least once and at most as often as it refers), whose phis are first and that is tidy: the loop ends, every remaining instruction without effects is used, only unused instructions without effects are gone, memory, calls, throws and results are the same in both directions."
  },
  {
   "property": "C26",
   "status": "partial",
   "theorems": [
    "Verif.Dead.C26_unusedAlloc_partial",
    "Verif.Dead.C26_violated",
    "Verif.Dead.C26_violated_witness"
   ],
   "note": "Proved when every variable that is never loaded has at most one store. With two or more the loop skips users and the pass fails: proved for every such variable, with a witness."
  },
  {
   "property": "C27",
   "status": "partial",
   "theorems": [
    "Verif.Compact.C27_compact_partial",
    "Verif.Compact.C27_found",
    "Verif.Compact.C27_value",
    "Verif.Compact.C27_violated_width",
    "Verif.Compact.C27_shared_fails",
    "Verif.Compact.C27_violated_emitted"
   ],
   "note": "On SSA functions, for pairs whose shifts have the same width: values and behaviour are kept at the IR level, or the pass fails because the left shift is shared. Violated for pairs of different widths (witness) and by the code generator, which copies all 64 bits (proved for all registers and states)."
  },
  {
   "property": "C28",
   "status": "partial",
   "theorems": [
    "Verif.DivZero.C28_no_zero_partial",
    "Verif.DivZero.C28_goes_to_error_partial",
    "Verif.DivZero.C28_otherwise_same",
    "Verif.DivZero.C28_violated_first",
    "Verif.DivZero.C28_violated_mod",
    "Verif.DivZero.C28_violated_width",
    "Verif.DivZero.C28_violated_const",
    "Verif.DivZero.C28_violated_phi"
   ],
   "note": "For divisions by a variable that are not first in their block: no execution of the result reaches one with a zero divisor; executions that would do so throw in front of the first one; all others are unchanged (when no phis stand behind such blocks). Violated for a division first in its block, for moduli, constant divisors, 32-bit divisors and phis behind the block (witnesses)."
  },
  {
   "property": "C29",
   "status": "partial",
   "theorems": [
    "Verif.Count.C29_cycles_partial",
    "Verif.Count.C29_bounded_partial",
    "Verif.Count.C29_filled",
    "Verif.Count.C29_violated_entry",
    "Verif.Count.C29_violated_reset",
    "Verif.Count.C29_violated_negative"
   ],
   "note": "Both modes, all functions in good shape whose entry has no predecessors: every reachable cycle has a counter, and for non-negative limits the number of entered blocks and of steps is bounded for all executions. Violated when a jump leads to the entry (no counter in fast mode, counter reset in accurate mode) and for negative limits (witnesses that run forever)."
  },
  {
   "property": "C30",
   "status": "partial",
   "theorems": [
    "Verif.Count.C30_at_most_100_partial",
    "Verif.Count.C30_violated"
   ],
   "note": "All functions in good shape whose entry has no predecessors, all executions. Violated when a jump leads to the entry, where the counter is reset (witness)."
  },
  {
   "property": "C31",
   "status": "partial",
   "theorems": [
    "Verif.Throw.C31_succeeds",
    "Verif.Throw.C31_discards_partial",
    "Verif.Throw.C31_all_partial",
    "Verif.Throw.C31_violated",
    "Verif.Throw.C31_violated_join",
    "Verif.Throw.C31_violated_loop",
    "Verif.Throw.C31_violated_entry"
   ],
   "note": "translate_throw_df, all functions in good shape whose entry has no predecessors, all executions: the loop ends; at a throw exactly the reservations kept on every way and not through a loop are discarded, once each, all of them held; in functions without loops where the held set does not depend on the way these are all. Violated for reservations held on one way only, through a loop, and (too much is discarded) when a jump leads to the entry. The compiler does not run this pass; the pass it runs discards nothing (witness)."
  },
  {
   "property": "C32",
   "status": "partial",
   "theorems": [
    "Verif.Throw.C32_no_throws",
    "Verif.Throw.C32_returns_zero",
    "Verif.Throw.C32_pipeline_no_throws",
    "Verif.Throw.C32_pipeline_partial",
    "Verif.Throw.C32_violated"
   ],
   "note": "translate_throw_df: no throw is left, throwing executions return 0, all others are unchanged. The pass the compiler runs leaves no throw either, but returns 1 (witness)."
  },
  {
   "property": "C33",
   "status": "partial",
   "theorems": [
    "Verif.Phi.C33_trivialPhi_partial",
    "Verif.Phi.C33_value",
    "Verif.Phi.C33_violated"
   ],
   "note": "On SSA functions: the pass ends, no trivial phi over instructions is left, behaviour is the same in both directions, and the replaced phi always has the value of its replacement where it is used. Phis whose operands are one constant repeated stay (witness)."
  },
  {
   "property": "C34",
   "status": "proved",
   "theorems": [
    "Verif.Live.C34_liveness",
    "Verif.Live.C34_terminates"
   ],
   "note": ""
  },
  {
   "property": "C35",
   "status": "proved",
   "theorems": [
    "Verif.RA.C35_coloring"
   ],
   "note": "for every sequence of recorded conflicts and every order"
  },
  {
   "property": "C36",
   "status": "partial",
   "theorems": [
    "Verif.RA.C36_prespill_partial",
    "Verif.RA.C36_mcs",
    "Verif.RA.C36_violated"
   ],
   "note": "the loop ends and never chooses a machine register for every graph and order; colouring succeeds if the machine registers come first in the order; the order of the code does not have them first: a graph is given where nothing is spilled and colouring fails"
  },
  {
   "property": "C37",
   "status": "partial",
   "theorems": [
    "Verif.RA.C37_coalescing_partial",
    "Verif.RA.C37_violated"
   ],
   "note": "fails for copies between conflicting values (witness), proved for other copies"
  },
  {
   "property": "C38",
   "status": "partial",
   "theorems": [
    "Verif.Stack.C38_slots_partial",
    "Verif.Stack.C38_shift",
    "Verif.Stack.C38_move_partial",
    "Verif.Stack.C38_places_partial",
    "Verif.Stack.C38_wrap_violated",
    "Verif.Stack.C38_trunc_violated",
    "Verif.Stack.C38_sub_violated",
    "Verif.Stack.C38_copy_violated",
    "Verif.Stack.C38_stored_violated",
    "Verif.Stack.C38_users_violated"
   ],
   "note": "slots: all request sequences of at most 32768 bytes (sizes are u32, the offset is s16: witnesses beyond); moving the program stack: functions that use the stack pointer only in marked accesses and sp + constant; four witnesses for other uses"
  },
  {
   "property": "C39",
   "status": "partial",
   "theorems": [
    "Verif.RemPhi.C39_copies_partial",
    "Verif.RemPhi.C39_spilled_rejected",
    "Verif.RemPhi.C39_violated_lost",
    "Verif.RemPhi.C39_violated_swap",
    "Verif.RemPhi.C39_violated_shared"
   ],
   "note": "remove_phi, all functions and executions: if the copies at the end of each block can be made one after the other, the function without phis does the same, and no phi is left. Violated with the registers of the modelled allocator: lost copy, swap, and two successors whose phis share a register."
  },
  {
   "property": "C40",
   "status": "partial",
   "theorems": [
    "Verif.Cg.C40_spill_partial",
    "Verif.Cg.C40_calls"
   ],
   "note": "spill for any list of instructions, all functions meeting SpillReady, all executions: succeeds, gives each instruction its own 8-byte slot, every use but the store becomes a load, and result, memory and calls stay the same. Missing: variables narrower than 64 bits are as wide in a register as in a slot in the semantics used. SpillReady is established by the lowering and kept by spill_array, spill_const and spill, see C54."
  },
  {
   "property": "C41",
   "status": "partial",
   "theorems": [
    "Verif.Cg.C41_lower_partial",
    "Verif.Cg.C41_violated"
   ],
   "note": "init_cg, change_call, change_fun_arg: from the SSA semantics to the semantics on places, where a call takes r1..r5, returns r0 and destroys r1..r5: same result, same calls with the same arguments, on all executions; copies stand right before and behind each call. Condition: nothing jumps to the entry (violated otherwise: the copies of the arguments are made again after r1..r5 were destroyed)."
  },
  {
   "property": "C42",
   "status": "partial",
   "theorems": [
    "Verif.Drive.C42_passes",
    "Verif.Drive.C42_unique",
    "Verif.Drive.C42_run_partial",
    "Verif.Drive.C42_run_violated"
   ],
   "note": "one pass list: all lists, configurations and states; a whole run ignores an error of the first list (witness)"
  },
  {
   "property": "C43",
   "status": "partial",
   "theorems": [
    "Verif.Opts.C43_list_partial",
    "Verif.Opts.C43_init_partial",
    "Verif.Opts.C43_parse_int",
    "Verif.Opts.C43_global",
    "Verif.Opts.C43_global_only_partial",
    "Verif.Opts.C43_pass",
    "Verif.Opts.C43_malformed",
    "Verif.Opts.C43_counter",
    "Verif.Opts.C43_optim",
    "Verif.Opts.C43_loaders_partial",
    "Verif.Opts.C43_bounds_partial",
    "Verif.Opts.C43_buffer_violated",
    "Verif.Opts.C43_bounds_violated",
    "Verif.Opts.C43_number_violated"
   ],
   "note": "all strings whose options, names and parameters fit in the buffers; longer ones overrun them (witnesses); empty and too large numbers are accepted (witnesses)"
  },
  {
   "property": "C44",
   "status": "partial",
   "theorems": [
    "Verif.Drive.C44_log_partial",
    "Verif.Drive.C44_message_violated",
    "Verif.Drive.C44_dump_partial",
    "Verif.Drive.C44_dump_violated"
   ],
   "note": "messages shorter than 200 characters and lines shorter than 1000; both buffers are overrun otherwise (witnesses)"
  },
  {
   "property": "C45",
   "status": "partial",
   "theorems": [
    "Verif.Drive.C45_limit",
    "Verif.Drive.C45_failed_partial",
    "Verif.Drive.C45_done",
    "Verif.Drive.C45_violated_fake",
    "Verif.Drive.C45_violated_alloc"
   ],
   "note": "size limit in full; failed runs leave the bytecode unchanged except for two paths (witnesses)"
  },
  {
   "property": "C46",
   "status": "proved",
   "theorems": [
    "Verif.Edit.C46_insert_block",
    "Verif.Edit.C46_insert_at"
   ],
   "note": ""
  },
  {
   "property": "C47",
   "status": "partial",
   "theorems": [
    "Verif.Msan.C47_structure",
    "Verif.Msan.C47_shadow_partial",
    "Verif.Msan.C47_no_spill",
    "Verif.Msan.C47_spill_violated",
    "Verif.Msan.C47_loop_violated",
    "Verif.Msan.C47_silent"
   ],
   "note": "C47_structure is the statement about the code, for all functions whose arithmetic is well founded: the array, the 32 stores of ones, the store of 0 of the same width at o+256 behind each tracked store, nothing else changed. C47_shadow_partial is what it means on all executions: result, calls and memory stay, the shadow byte is 0 iff the byte has been written to. Not covered: as soon as one value is spilled, o+256 is not in the shadow array for the lowest bytes (C47_spill_violated); a jump to the entry fills the shadow again (C47_loop_violated). C47_silent: the loaded shadow is never looked at."
  },
  {
   "property": "C48",
   "status": "partial",
   "theorems": [
    "Verif.Ecall.C48_exact_partial",
    "Verif.Ecall.C48_guarded",
    "Verif.Ecall.C48_store",
    "Verif.Ecall.C48_none",
    "Verif.Ecall.C48_handled_partial",
    "Verif.Ecall.C48_pointer_violated",
    "Verif.Ecall.C48_walk_violated",
    "Verif.Ecall.C48_phi_violated"
   ],
   "note": "All functions meeting Fit. C48_exact_partial: translate_heap succeeds, redirects exactly the loads and stores whose base is a loaded value or arithmetic on one, adds the lookup in front of each, and changes nothing else. C48_guarded: on every execution that gets to a redirected load, the address has just been looked up in the map, the result is not null and the load reads there. C48_store: a redirected store goes to map pointer + address without any check. Missing: a loaded value can be a pointer (a pointer kept on the stack, C48_pointer_violated), the loop over the block after an ecall directly in front of a redirected load (C48_walk_violated), phis behind a split block (C48_phi_violated)."
  },
  {
   "property": "C49",
   "status": "proved",
   "theorems": [
    "Verif.GenBB.C49_zero_jumps"
   ],
   "note": "All legal programs, states and run lengths."
  },
  {
   "property": "C50",
   "status": "partial",
   "theorems": [
    "Verif.Lift.C50_calls_partial",
    "Verif.Lift.C50_violated_printk"
   ],
   "note": "Same conditions as C20, helpers other than trace_printk."
  },
  {
   "property": "C51",
   "status": "proved",
   "theorems": [
    "Verif.Live.C51_live_apart",
    "Verif.Live.C51_call"
   ],
   "note": ""
  },
  {
   "property": "C52",
   "status": "partial",
   "theorems": [
    "Verif.Loc.C52_registers_partial",
    "Verif.Loc.C52_coalesced_partial",
    "Verif.Loc.C52_violated"
   ],
   "note": "liveness, conflicts, colouring along any order (and coalescing): working on the machine registers is the same as working on virtual registers, on all executions, provided machine registers read directly (arguments) are intact when read; violated for a function with two arguments (witness: one argument overwrites the other before it is copied)."
  },
  {
   "property": "C53",
   "status": "proved",
   "theorems": [
    "Verif.Cg.C53_const"
   ],
   "note": "spill_const on all functions meeting SpillReady (the condition that C40 has too, and which holds again afterwards), all executions."
  },
  {
   "property": "C54",
   "status": "partial",
   "theorems": [
    "Verif.Cg.C54_front_partial",
    "Verif.Cg.C54_arrays"
   ],
   "note": "composition of the lowering, spill_array, spill_const and any rounds of spilling, from the SSA semantics to the semantics on places; all functions meeting Ready and Neat (shape of the SSA function only), any choice of victims, all executions. Missing: functions in which something jumps to the entry (C41_violated), arrays of 2^32-7 bytes or more (C38_wrap_violated)."
  },
  {
   "property": "C55",
   "status": "proved",
   "theorems": [
    "Verif.Flatten.C55_flat",
    "Verif.Flatten.C55_array_violated"
   ],
   "note": "all functions meeting Placed (no phis or throws, operands and results have positions, arrays are used as bases of addresses only, slots do not overlap), all executions in which the loads and stores of the program stay out of the slots (Sane), helpers that do not look at the slots (Serves). An array used as a value is read instead of its address being taken (witness, outside of the quantifier)."
  },
  {
   "property": "C56",
   "status": "partial",
   "theorems": [
    "Verif.Flatten.C56_bytecode_partial"
   ],
   "note": "composition of C55 and C09. Missing: operand patterns excluded in C10-C14 (Plain), builtin constants (C77), graphs on which the layout goes wrong (C08), more than 32768 slots."
  },
  {
   "property": "C57",
   "status": "partial",
   "theorems": [
    "Verif.Compile.C57_codegen_partial",
    "Verif.Compile.C57_violated_args",
    "Verif.Compile.C57_violated_lost",
    "Verif.Compile.C57_violated_swap",
    "Verif.Compile.C57_violated_merged"
   ],
   "note": "all SSA functions meeting Ready, Neat and Fits, all executions; composition of C54, C52, C38, C39 and C56 with the invariants between them proved. Missing: choices of the allocator that are not Regular, which occur (four functions whose bytecode returns another value than the function), operand patterns excluded in C10-C14, graphs on which the layout goes wrong (C08), the passes before code generation; builtin constants (C77: without them nothing is missing)."
  },
  {
   "property": "C58",
   "status": "proved",
   "theorems": [
    "Verif.Pipe.C58_lifted"
   ],
   "note": "all well-shaped programs of at most 32768 slots from which control does not run off the end, with byte swaps of 16, 32 or 64 bits and no call of helper 0, on which SSA construction ends (a hypothesis here: lift n P = ok f; C61 says when it holds)."
  },
  {
   "property": "C59",
   "status": "proved",
   "theorems": [
    "Verif.Pipe.C59_passes"
   ],
   "note": "all well-shaped, closed programs of at most 32768 slots whose instructions are Usual and Clean (the faithfully lifted ones, see C20/C50) on which SSA construction ends (C61 says when); helpers of the original machine leave r1 to r5 alone. Without options: remove_trivial_phi, ecalls, throws, optimize_ir."
  },
  {
   "property": "C60",
   "status": "partial",
   "theorems": [
    "Verif.Pipe.C60_autorun_partial",
    "Verif.Pipe.C60_violated_lost",
    "Verif.Pipe.C60_violated_swap",
    "Verif.Pipe.C60_violated_args",
    "Verif.Pipe.C60_violated_copy",
    "Verif.Pipe.C60_violated_sub",
    "Verif.Pipe.C60_violated_load"
   ],
   "note": "bytecode to bytecode, all executions. Missing: instructions that are not Clean/Usual, other uses of r10 than r10 + constant and accesses at constant offsets, choices of the allocator that are not Regular, operand patterns excluded in C10-C14, own accesses to spill slots. Six programs that a run breaks are proved to be broken."
  },
  {
   "property": "C61",
   "status": "proved",
   "theorems": [
    "Verif.Lift.C61_ends",
    "Verif.Lift.C61_accepted",
    "Verif.Lift.C61_exact",
    "Verif.Pipe.C61_passes"
   ],
   "note": "all well-shaped, closed programs of at most 32768 slots using r0 to r10; the if-and-only-if for those that do not call helper 6. C61_passes is C58 and C59 without the hypothesis that SSA construction ends."
  },
  {
   "property": "C62",
   "status": "partial",
   "theorems": [
    "Verif.Pipe.C62_passes",
    "Verif.Pipe.C62_autorun_partial",
    "Verif.Pipe.C62_typed_partial",
    "Verif.Pipe.C62_violated_spoilt"
   ],
   "note": "C62_passes: lifting and the passes, complete. C62_autorun_partial: the whole run, with the conditions of C60_autorun_partial. C62_typed_partial: the conditions on r10 are on the bytecode."
  },
  {
   "property": "C63",
   "status": "proved",
   "theorems": [
    "Verif.Tool.C63_roundtrip",
    "Verif.Tool.C63_reads",
    "Verif.Tool.C63_violated_long",
    "Verif.Tool.C63_violated_text"
   ],
   "note": "All programs of fewer than 2^32 instructions, all files of lines with at most 254 digits. Two witnesses for other files: long lines are split, text is not refused."
  },
  {
   "property": "C64",
   "status": "partial",
   "theorems": [
    "Verif.Tool.C64_single_partial",
    "Verif.Tool.C64_last_partial",
    "Verif.Tool.C64_not_found",
    "Verif.Tool.C64_violated_status",
    "Verif.Tool.C64_violated_file",
    "Verif.Tool.C64_violated_pass_only",
    "Verif.Tool.C64_violated_empty"
   ],
   "note": "Proved for one program without --pass-only; for several the status is that of the last one. The code violates the rest (witnesses)."
  },
  {
   "property": "C65",
   "status": "partial",
   "theorems": [
    "Verif.Tool.C65_understood",
    "Verif.Tool.C65_only",
    "Verif.Tool.C65_safe_partial",
    "Verif.Tool.C65_violated_long",
    "Verif.Tool.C65_violated_print"
   ],
   "note": "Both directions of the syntax for all lists of arguments; safety for arguments of fewer than 64 characters, which is needed (witness)."
  },
  {
   "property": "C66",
   "status": "partial",
   "theorems": [
    "Verif.Count.C66_follows_partial",
    "Verif.Count.C66_below_partial",
    "Verif.Count.C66_back_partial",
    "Verif.Count.C66_labels",
    "Verif.Count.C66_costs",
    "Verif.Count.C66_ends",
    "Verif.Count.C66_violated_labels"
   ],
   "note": "For the function with phi labels brought up to date; the pass leaves them stale where a block has been split (witness). C66_labels: nothing to bring up to date where no phi names such a block."
  },
  {
   "property": "C67",
   "status": "partial",
   "theorems": [
    "Verif.Count.C67_follows_partial",
    "Verif.Count.C67_ends",
    "Verif.Count.C66_labels",
    "Verif.Count.C66_violated_labels"
   ],
   "note": "As C66."
  },
  {
   "property": "C68",
   "status": "partial",
   "theorems": [
    "Verif.Pipe.C68_calls_partial",
    "Verif.Pipe.table_all",
    "Verif.Pipe.table_other",
    "Verif.Pipe.C68_violated_storage"
   ],
   "note": "All helpers except trace_printk (no fixed number) and the five for which the table counts an argument of the verifier (witness: the emitted program reads r5, which has no value)."
  },
  {
   "property": "C69",
   "status": "partial",
   "theorems": [
    "Verif.Pipe.C69_counter_partial",
    "Verif.Pipe.C69_jumps_partial",
    "Verif.Pipe.C69_guards_partial"
   ],
   "note": "From the bytecode to the result of the pass, success included. The counters: with phi labels brought up to date (C66_violated_labels). div_by_zero: where no block behind a division has phis (C28_violated_phi), and for the divisions that are guarded at all (C28_violated_first, _mod, _width, _const)."
  },
  {
   "property": "C70",
   "status": "partial",
   "theorems": [
    "Verif.Pipe.C70_guarded_run_partial",
    "Verif.Pipe.C70_bytecode_partial",
    "Verif.Pipe.C70_typed_partial",
    "Verif.Pipe.C70_apart_partial",
    "Verif.Pipe.C70_passes",
    "Verif.Pipe.C70_violated_phi"
   ],
   "note": "From bytecode to bytecode, under the conditions of C60 on the result of code generation, and where no phi names a block with a division (needed: witness). C70_apart_partial: control does not merge behind divisions, a condition on the bytecode."
  },
  {
   "property": "C71",
   "status": "partial",
   "theorems": [
    "Verif.Tool.C71_text",
    "Verif.Tool.C71_same_partial",
    "Verif.Tool.C71_detail",
    "Verif.Tool.C71_violated_kind",
    "Verif.Tool.C71_violated_detail",
    "Verif.Tool.C71_violated_blocks",
    "Verif.Tool.C71_violated_table",
    "Verif.Tool.C71_violated_null"
   ],
   "note": "Text and safety for all programs of known instructions; same listing means same behaviour in mode bpf_detail, and in mode bpf if wide loads load the same kinds of things (needed: witness). Printing of slots that are no instructions, and of wide loads with verbose level 3, is undefined."
  },
  {
   "property": "C72",
   "status": "proved",
   "theorems": [
    "Verif.Links.C72_reads",
    "Verif.Links.C72_create",
    "Verif.Links.C72_create_at",
    "Verif.Links.C72_erase",
    "Verif.Links.C72_block",
    "Verif.Links.C72_split",
    "Verif.Links.C72_each",
    "Verif.Links.C72_safe",
    "Verif.Links.C72_length",
    "Verif.Links.C72_erasing",
    "Verif.Links.C72_plain_erasing",
    "Verif.Links.C72_violated_split"
   ],
   "note": ""
  },
  {
   "property": "C73",
   "status": "partial",
   "theorems": [
    "Verif.Fit.C73_regular",
    "Verif.Fit.C73_codegen_partial",
    "Verif.Pipe.C73_autorun_partial",
    "Verif.Pipe.C73_typed_partial",
    "Verif.Pipe.C73_violated"
   ],
   "note": "Whole runs from bytecode to bytecode on one machine, with nothing assumed about the registers chosen. Hypotheses that remain: at most one argument is used and the copies of phis do not disturb each other (both needed: witnesses), r10 is used in the usual forms (a condition on the bytecode in C73_typed_partial), operands are not in patterns that are translated wrongly."
  },
  {
   "property": "C74",
   "status": "partial",
   "theorems": [
    "Verif.Pipe.C74_guarded_partial",
    "Verif.Pipe.C74_bytecode_partial",
    "Verif.Pipe.C74_typed_partial",
    "Verif.Pipe.C74_apart_partial"
   ],
   "note": "Hypotheses that remain: those of C73 and no phi names a block that is split (needed: C70_violated_phi). C74_bytecode_partial speaks about the two programs only; C74_typed_partial has the condition on r10 on the bytecode, C74_apart_partial also the one on phis."
  },
  {
   "property": "C75",
   "status": "partial",
   "theorems": [
    "Verif.Show.C75_numbers",
    "Verif.Show.C75_quiet_partial",
    "Verif.Show.C75_quiet_passes",
    "Verif.Show.C75_same_partial",
    "Verif.Show.C75_programs_partial",
    "Verif.Show.C75_violated_neg",
    "Verif.Show.C75_violated_swap",
    "Verif.Show.C75_violated_made",
    "Verif.Show.C75_violated_loud"
   ],
   "note": "Numbers for all functions; quiet for lifting, the default passes and (with the frame pointer used as in C60) the pass in front of code generation, not for the listings inside code generation; same listing means same behaviour where widths of negations and byte swaps are 64 bits (needed: witnesses)."
  },
  {
   "property": "C76",
   "status": "partial",
   "theorems": [
    "Verif.Pipe.C76_codegen_partial",
    "Verif.Pipe.C76_run_partial",
    "Verif.Pipe.C76_guarded_partial",
    "Verif.Pipe.C76_typed_partial",
    "Verif.Pipe.C76_accepted_partial",
    "Verif.Pipe.C76_typed_guarded_partial",
    "Verif.Pipe.C76_apart_partial",
    "Verif.Pipe.C76_violated_store",
    "Verif.Pipe.C76_violated_sp",
    "Verif.Compile.compile_safe"
   ],
   "note": "All steps of code generation, from bytecode, for every number of spills. Hypotheses that remain: no store to a constant address and no use of r10 as a plain operand (both needed: witnesses), no call of helper 6. The typed, accepted and apart versions have their conditions on the bytecode only."
  },
  {
   "property": "C77",
   "status": "partial",
   "theorems": [
    "Verif.Emit.C77_counts_partial",
    "Verif.Emit.C77_critical_partial",
    "Verif.Emit.C77_filled_partial",
    "Verif.Pipe.C77_run_partial",
    "Verif.Emit.C77_violated_exact",
    "Verif.Emit.C77_violated_wide",
    "Verif.Emit.C77_violated_critical"
   ],
   "note": "All blocks in which builtin constants stand where insn_counter puts them. Not an exact count (witness: an addition of zero is counted and not emitted), so the number is an upper bound with the difference stated. Missing: placeholders in other places (witness), chains of predecessors that do not end (witness)."
  },
  {
   "property": "C78",
   "status": "partial",
   "theorems": [
    "Verif.Heap.C78_edits",
    "Verif.Heap.C78_free_partial",
    "Verif.Heap.C78_all_partial",
    "Verif.Heap.C78_left",
    "Verif.Heap.start_sound",
    "Verif.Heap.C78_violated_phi",
    "Verif.Heap.C78_violated_unreachable",
    "Verif.Heap.C78_violated_function"
   ],
   "note": "All histories: nothing is freed twice, and what stays is stated exactly. The code loses the operand array of erased phis, unreachable blocks and the function structure itself (witnesses)."
  },
  {
   "property": "C79",
   "status": "partial",
   "theorems": [
    "Verif.Heap.C79_free_partial",
    "Verif.Heap.C79_same",
    "Verif.Heap.C79_violated_twice"
   ],
   "note": "All option strings and configurations. The code loses a parameter when a pass is given one twice (witness); options longer than the buffers are excluded (C43)."
  },
  {
   "property": "C80",
   "status": "partial",
   "theorems": [
    "Verif.Compile.C80_emitted",
    "Verif.Compile.C80_emitted_violated",
    "Verif.Pipe.C80_run_partial",
    "Verif.Pipe.C80_typed_partial",
    "Verif.Pipe.C80_typed_guarded_partial",
    "Verif.Pipe.C80_apart_partial",
    "Verif.Pipe.C80_any_partial",
    "Verif.Pipe.C80_violated"
   ],
   "note": "All block lists and all programs. Loads from constant addresses are encoded wrongly by the code (witnesses) and excluded; The typed and apart versions have all conditions on the bytecode; with div_by_zero control may not merge behind divisions."
  },
  {
   "property": "C81",
   "status": "partial",
   "theorems": [
    "Verif.Compile.C81_emitted",
    "Verif.Compile.C81_emitted_violated",
    "Verif.Pipe.C81_run_partial",
    "Verif.Pipe.C81_typed_partial",
    "Verif.Pipe.C81_typed_guarded_partial",
    "Verif.Pipe.C81_apart_partial"
   ],
   "note": "All block lists and all programs with a run that ends without an error. The conditions on the frame pointer and on addresses of stores are on the bytecode in the typed versions; with div_by_zero no phi may be fed from a block with a division."
  }
 ]
}