{"id": "C01", "title": "Dynamic array behaves as a list", "statement": "Starting from INIT_ARRAY, after any sequence of bpf_ir_array_push / push_unique / erase / clear / merge / clone, the elements read back through bpf_ir_array_get_void are exactly those of a mathematical list subjected to the same operations, reading past the end yields NULL, and no write ever lands outside the allocated capacity.", "quantifier": "all operation sequences, all element values, all lengths", "why_tests_cant": "unbounded histories interact with the doubling policy and with erase shifting; a test explores finitely many histories", "anchors": ["core/array.c:bpf_ir_array_push", "core/array.c:bpf_ir_array_push_unique", "core/array.c:bpf_ir_array_erase", "core/array.c:bpf_ir_array_merge", "core/array.c:bpf_ir_array_clone", "core/array.c:bpf_ir_array_get_void"]}
{"id": "C02", "title": "Pointer set membership after any history", "statement": "After any sequence of insert and delete on a pointer hash set, exists(k) answers true exactly for the keys whose last operation was an insert, and the element count is the number of such keys.", "quantifier": "all key values, all initial sizes, all insert/delete histories", "why_tests_cant": "collisions and tombstones depend on concrete pointer values and history length", "anchors": ["core/ptrset.c:bpf_ir_ptrset_insert", "core/ptrset.c:bpf_ir_ptrset_delete", "core/ptrset.c:bpf_ir_ptrset_exists"]}
{"id": "C03", "title": "Pointer set algebra and iteration", "statement": "Union, intersection, difference (minus), in-place add, and clone of pointer sets produce exactly the mathematical union, intersection, difference and copy of the member sets; iterating with next visits every member exactly once.", "quantifier": "all pairs of sets reachable by insertions", "why_tests_cant": "depends on arbitrary pointer values and table sizes", "anchors": ["core/ptrset.c:bpf_ir_ptrset_union", "core/ptrset.c:bpf_ir_ptrset_intersec", "core/ptrset.c:bpf_ir_ptrset_minus", "core/ptrset.c:bpf_ir_ptrset_add", "core/ptrset.c:bpf_ir_ptrset_clone", "core/ptrset.c:bpf_ir_ptrset_next"]}
{"id": "C04", "title": "Pointer set insertion never fails to find a slot", "statement": "Inserting any key into a set created with the default size always finds a slot; the abort path inside the probe loop is never reached, whatever was inserted before.", "quantifier": "all insertion histories from the default initial size", "why_tests_cant": "the probe sequence must be shown to cover the whole table for every table size that growth can produce", "anchors": ["core/ptrset.c:bpf_ir_ptrset_insert_raw", "core/ptrset.c:bpf_ir_ptrset_insert", "core/include/linux/hash.h:hash32_ptr"]}
{"id": "C05", "title": "64-bit immediate survives encode/decode", "statement": "A 64-bit immediate load emitted as two instruction slots, when read back by the lifter, yields the same 64-bit value, destination register and pseudo source kind.", "quantifier": "all 2^64 immediates, all registers, all seven load kinds", "why_tests_cant": "the value domain is too large to enumerate and sign extension of each half matters", "anchors": ["core/ir_cg_norm.c:synthesize", "core/bpf_ir.c:gen_bb", "core/bpf_ir.c:transform_bb"]}
{"id": "C06", "title": "Emission places every instruction exactly once", "statement": "The emitted bytecode array has exactly the counted number of slots; every generated machine instruction occupies the slot(s) computed for it, no two overlap, every slot is filled, and the order is the block layout order.", "quantifier": "all programs (any number of blocks, IR instructions and expansions)", "why_tests_cant": "counts and positions accumulate over unbounded programs with mixed one/two-slot instructions", "anchors": ["core/ir_cg_norm.c:calc_pos", "core/ir_cg_norm.c:synthesize"]}
{"id": "C07", "title": "Relocated jumps land on their target block", "statement": "In emitted bytecode, every jump offset makes the kernel continue at the first instruction of the intended target block (target = pc + 1 + off).", "quantifier": "all programs, all block layouts and distances", "why_tests_cant": "the offset field is 16 bits wide; the claim ranges over unbounded code distances", "anchors": ["core/ir_cg_norm.c:relocate", "core/ir_cg_norm.c:calc_pos"]}
{"id": "C08", "title": "Fallthrough blocks are laid out adjacently", "statement": "In the final block order, each reachable block occurs exactly once, the entry block is first, and a block whose control falls through (no terminator, or a conditional jump's not-taken edge) is immediately followed by its fallthrough successor, so emitted code continues there.", "quantifier": "all control flow graphs", "why_tests_cant": "the layout is a recursive graph traversal; adjacency must hold for every graph shape", "anchors": ["core/bpf_ir.c:gen_reachable_bbs", "core/bpf_ir.c:add_reach", "core/bpf_ir.c:find_chain_head"]}
{"id": "C09", "title": "Emitted bytecode executes the block-structured program", "statement": "Running the emitted bytecode array from slot 0 under BPF semantics performs the same sequence of register/memory effects and returns the same value as executing the translated program block by block, following its jumps and fallthroughs.", "quantifier": "all translated programs whose jump distances fit, all machine states, all execution lengths", "why_tests_cant": "needs a simulation argument over executions of unbounded length", "anchors": ["core/ir_cg_norm.c:relocate", "core/ir_cg_norm.c:synthesize", "core/ir_cg_norm.c:bpf_ir_code_gen_norm"]}
{"id": "C10", "title": "Binary ALU code generation is correct under register aliasing", "statement": "For every binary ALU operation, width, and assignment of destination and operands to registers or constants (including destination equal to either operand), the generated machine code leaves in the destination the value of `a op b` and changes no other location.", "quantifier": "all ops, widths, registers, aliasing patterns, constants and 64-bit register contents", "why_tests_cant": "value domain 2^128 times aliasing combinations", "anchors": ["core/ir_cg_norm.c:normalize_alu", "core/ir_cg_norm.c:translate_alu"]}
{"id": "C11", "title": "Conditional jump code generation preserves the branch decision", "statement": "For every comparison, width and operand placement (register/constant on either side), the generated branch is taken exactly when the IR comparison holds on the operand values.", "quantifier": "all comparisons, widths, operand values and placements", "why_tests_cant": "operand swapping must map every comparison to its mirror for all values including signed extremes", "anchors": ["core/ir_cg_norm.c:normalize_cond_jmp", "core/ir_cg_norm.c:translate_cond_jmp"]}
{"id": "C12", "title": "Copies between locations are correct", "statement": "An IR assignment between any mix of register, stack slot and constant compiles to code that puts the source value into the destination location and leaves every other register and stack slot unchanged.", "quantifier": "all locations, constants of either width, machine states", "why_tests_cant": "domain of constants and states is unbounded", "anchors": ["core/ir_cg_norm.c:normalize_assign", "core/ir_cg_norm.c:translate_assign"]}
{"id": "C13", "title": "Return code generation", "statement": "An IR return of a register, stack slot or constant compiles to code that exits with exactly that 64-bit value.", "quantifier": "all return operands and machine states", "why_tests_cant": "64-bit constants include values not representable in 32 bits", "anchors": ["core/ir_cg_norm.c:normalize_ret", "core/ir_cg_norm.c:translate_ret"]}
{"id": "C14", "title": "Unary and address code generation", "statement": "Negation, byte-swap, element-pointer and memory load/store instructions compile to code with the IR meaning for every allocation of their operands.", "quantifier": "all operand placements and machine states", "why_tests_cant": "placements times 64-bit values", "anchors": ["core/ir_cg_norm.c:normalize_neg", "core/ir_cg_norm.c:normalize_end", "core/ir_cg_norm.c:normalize_getelemptr", "core/ir_cg_norm.c:normalize_load", "core/ir_cg_norm.c:normalize_store"]}
{"id": "C15", "title": "Basic blocks partition the bytecode", "statement": "Splitting a bytecode program into basic blocks yields blocks that are pairwise disjoint intervals, start exactly at instruction 0 and at jump targets/fallthroughs, contain no jump or exit except at the end, and cover every instruction that can execute.", "quantifier": "all bytecode programs with in-range jumps", "why_tests_cant": "unbounded program shapes", "anchors": ["core/bpf_ir.c:gen_bb", "core/bpf_ir.c:init_entrance_info"]}
{"id": "C16", "title": "CFG edges equal the program's control flow", "statement": "There is an edge from block A to block B in the built graph iff executing the last instruction of A can continue at the first instruction of B.", "quantifier": "all bytecode programs", "why_tests_cant": "unbounded program shapes, including jumps to instruction 0, self loops and zero offsets", "anchors": ["core/bpf_ir.c:gen_bb", "core/bpf_ir.c:add_entrance_info", "core/bpf_ir.c:is_raw_insn_breakpoint"]}
{"id": "C17", "title": "Lifting keeps ALU and move meaning", "statement": "Each ALU/move bytecode instruction accepted by the lifter becomes IR whose value equals the value the BPF machine would put in the destination register.", "quantifier": "all instructions, register values, immediates and widths", "why_tests_cant": "64-bit domains and sign/zero extension rules", "anchors": ["core/bpf_ir.c:transform_bb"]}
{"id": "C18", "title": "Lifting keeps memory access meaning", "statement": "Each load/store bytecode instruction accepted by the lifter becomes an IR access of the same address, width and extension.", "quantifier": "all addressing registers, offsets, widths, modes", "why_tests_cant": "unbounded address and value domain", "anchors": ["core/bpf_ir.c:transform_bb"]}
{"id": "C19", "title": "Unsupported instructions are rejected, never silently dropped", "statement": "For each of the 256 opcodes and all operand fields the lifter either produces IR for the instruction or reports an error; no opcode is skipped silently.", "quantifier": "all 64-bit instruction encodings", "why_tests_cant": "2^64 encodings", "anchors": ["core/bpf_ir.c:transform_bb"]}
{"id": "C20", "title": "SSA construction reads the reaching definition", "statement": "In lifted IR, the value used for register r at a program point is the value most recently written to r along whichever path execution took (function argument or stack pointer at entry), including through loops.", "quantifier": "all CFGs, all paths, all registers", "why_tests_cant": "joins and loops give unboundedly many paths", "anchors": ["core/bpf_ir.c:read_variable", "core/bpf_ir.c:read_variable_recursive", "core/bpf_ir.c:write_variable", "core/bpf_ir.c:seal_block", "core/bpf_ir.c:add_phi_operands"]}
{"id": "C21", "title": "Def-use lists stay consistent under the IR editing API", "statement": "After any sequence of instruction creation, operand change, replace-all-usage and erase through the API, an instruction is listed as user of a value exactly as many times as it refers to it.", "quantifier": "all editing sequences", "why_tests_cant": "histories are unbounded; duplicates and self references interact", "anchors": ["core/ir_insn.c:bpf_ir_replace_all_usage", "core/ir_insn.c:bpf_ir_replace_operand", "core/ir_insn.c:bpf_ir_erase_insn", "core/ir_value.c:bpf_ir_change_value", "core/ir_insn.c:bpf_ir_val_add_user", "core/ir_insn.c:bpf_ir_val_remove_user"]}
{"id": "C22", "title": "Block graph edits keep predecessor/successor symmetry", "statement": "After any sequence of connect, disconnect, block creation and block split, B is a successor of A iff A is a predecessor of B.", "quantifier": "all graph editing histories", "why_tests_cant": "unbounded histories", "anchors": ["core/ir_bb.c:bpf_ir_connect_bb", "core/ir_bb.c:bpf_ir_disconnect_bb", "core/ir_bb.c:bpf_ir_split_bb"]}
{"id": "C23", "title": "Splitting a block preserves execution", "statement": "Splitting a block before/after an instruction keeps the instruction sequence executed along every path.", "quantifier": "all blocks, split points and paths", "why_tests_cant": "unbounded block sizes and paths", "anchors": ["core/ir_bb.c:bpf_ir_split_bb"]}
{"id": "C24", "title": "Program checker accepts exactly well-formed IR", "statement": "The IR checker reports success iff the function satisfies the documented well-formedness rules: operand counts and kinds, valid widths, phi nodes first, users consistent, terminators last and successor lists matching the terminator.", "quantifier": "all IR functions", "why_tests_cant": "unbounded IR graphs; both soundness and completeness are universally quantified", "anchors": ["core/aux/prog_check.c:bpf_ir_prog_check"]}
{"id": "C25", "title": "Dead instruction elimination preserves behaviour", "statement": "Removing instructions without users terminates, leaves no removable unused instruction, never removes an instruction with side effects or whose value is used, and does not change the program's memory effects, calls, branches and return value.", "quantifier": "all IR programs and executions", "why_tests_cant": "fixpoint over unbounded programs, all executions", "anchors": ["core/passes/optimization.c:remove_no_user_insn"]}
{"id": "C26", "title": "Unused stack variable elimination", "statement": "For every alloc without loads, the pass removes the alloc and all its stores, succeeds, and leaves others untouched.", "quantifier": "all functions, any number of stores per alloc", "why_tests_cant": "the loop edits the list it iterates over; behaviour depends on the number of stores", "anchors": ["core/passes/optimization.c:remove_unused_alloc"]}
{"id": "C27", "title": "Shift-pair compaction preserves values", "statement": "Replacing `(x << 32) >> 32` by a 32-bit move leaves every computed value unchanged.", "quantifier": "all IR programs, all 64-bit values", "why_tests_cant": "64-bit domain, all instruction contexts", "anchors": ["core/passes/code_compaction.c:bpf_ir_optimize_code_compaction"]}
{"id": "C28", "title": "Division guard covers every variable division", "statement": "After the division-by-zero pass, no execution reaches a division (or modulo) whose run-time divisor is zero: such executions go to the error block instead.", "quantifier": "all IR programs, all divisor values, both widths", "why_tests_cant": "all positions and values", "anchors": ["core/passes/div_by_zero.c:bpf_ir_div_by_zero"]}
{"id": "C29", "title": "Instruction counter bounds every execution", "statement": "After the instruction counter pass, every cycle of the control flow graph reachable from entry contains an instrumented block, hence every execution either finishes or is aborted after a number of block executions bounded in terms of the limit.", "quantifier": "all CFGs, all execution paths, all limits", "why_tests_cant": "termination of arbitrary programs", "anchors": ["core/passes/insn_counter_pass.c:insn_counter", "core/passes/insn_counter_pass.c:add_counter_to_bb"]}
{"id": "C30", "title": "Jump counter bounds every execution", "statement": "After the jump complexity pass no execution performs more than 100 original jumps before being aborted.", "quantifier": "all IR programs and executions", "why_tests_cant": "unbounded executions", "anchors": ["core/passes/jmp_complexity.c:bpf_ir_jmp_complexity"]}
{"id": "C31", "title": "Throw translation releases held references", "statement": "When an execution reaches a throw, every ring-buffer reservation acquired and not yet submitted/discarded on that path is discarded exactly once before exit.", "quantifier": "all CFGs and all paths including loops", "why_tests_cant": "path sets are infinite; the analysis is a fixpoint", "anchors": ["core/passes/translate_throw.c:translate_throw_df", "core/passes/translate_throw.c:translate_throw_helper"]}
{"id": "C32", "title": "No throw survives and throw exits with 0", "statement": "After throw translation no block ends with a throw; each former throw returns 0.", "quantifier": "all IR functions", "why_tests_cant": "all functions", "anchors": ["core/passes/translate_throw.c:translate_throw_helper"]}
{"id": "C33", "title": "Trivial phi removal preserves values", "statement": "Removing a phi whose operands are all one value (or itself) leaves the value seen by every former user unchanged on every execution; the pass terminates and leaves no trivial phi.", "quantifier": "all phi graphs, all executions", "why_tests_cant": "loops make phi values path dependent", "anchors": ["core/passes/phi_pass.c:try_remove_trivial_phi", "core/passes/phi_pass.c:remove_trivial_phi"]}
{"id": "C34", "title": "Liveness covers every use", "statement": "If some execution path from a point uses a virtual register before redefining it, the register is in the computed live set there.", "quantifier": "all functions and all paths", "why_tests_cant": "infinitely many paths through loops", "anchors": ["core/ir_cg.c:liveness_analysis", "core/ir_cg.c:live_in_at_statement", "core/ir_cg.c:live_out_at_statement", "core/ir_cg.c:live_out_at_block"]}
{"id": "C35", "title": "Register assignment separates interfering values", "statement": "After coloring, two virtual registers recorded as conflicting never share a machine register, pre-assigned registers keep their register, and every color is a valid register 0..9.", "quantifier": "all conflict graphs", "why_tests_cant": "graphs are unbounded", "anchors": ["core/ir_cg.c:coloring"]}
{"id": "C36", "title": "Pre-spilling terminates and makes coloring succeed", "statement": "The pre-spill loop terminates, never needs to spill a machine register, and afterwards coloring along the same elimination order always finds a free register.", "quantifier": "all conflict graphs and elimination orders", "why_tests_cant": "greedy bound must hold on every graph", "anchors": ["core/ir_cg.c:pre_spill", "core/ir_cg.c:mcs", "core/ir_cg.c:coloring"]}
{"id": "C37", "title": "Coalescing keeps interfering values apart", "statement": "After copy coalescing, conflicting virtual registers still have different machine registers.", "quantifier": "all conflict graphs and copy instructions", "why_tests_cant": "all graphs and copy orders", "anchors": ["core/ir_cg.c:coalesce", "core/ir_cg.c:coalescing"]}
{"id": "C38", "title": "Stack slots do not overlap", "statement": "Distinct spilled variables and stack arrays occupy pairwise disjoint stack ranges, disjoint from the program's own stack use after the offset shift.", "quantifier": "any number and sizes of spills and arrays", "why_tests_cant": "unbounded number of allocations and rounding", "anchors": ["core/ir_cg.c:spill_array", "core/ir_cg.c:get_new_spill", "core/ir_cg.c:add_stack_offset"]}
{"id": "C39", "title": "Phi elimination preserves values", "statement": "Replacing phi nodes by copies at the end of predecessor blocks gives each phi result the value of its operand for the edge taken, on every execution.", "quantifier": "all CFGs, phi sets, executions", "why_tests_cant": "parallel-copy semantics versus sequential copies over all interferences", "anchors": ["core/ir_cg.c:remove_phi", "core/passes/cg_prepare.c:bpr_ir_cg_to_cssa"]}
{"id": "C40", "title": "Spilling preserves values", "statement": "Rewriting a spilled virtual register through a stack slot (store after definition, load before each use) leaves every computed value unchanged.", "quantifier": "all programs, all spilled sets", "why_tests_cant": "all executions", "anchors": ["core/ir_cg.c:spill", "core/ir_cg.c:spill_insn"]}
{"id": "C41", "title": "Call lowering passes the right arguments", "statement": "At each lowered call the argument registers r1..r5 hold the IR argument values and the result is read from r0.", "quantifier": "all calls, all register assignments", "why_tests_cant": "all machine states and assignments", "anchors": ["core/ir_cg.c:change_call", "core/ir_cg.c:change_fun_arg"]}
{"id": "C42", "title": "Pass selection follows the configuration", "statement": "A pass runs iff its configuration entry (first match by name) says so, or, without entry, iff it is enabled by default; passes run in list order and execution stops at the first pass that reports an error.", "quantifier": "all pass lists and configurations", "why_tests_cant": "all configurations", "anchors": ["core/bpf_ir.c:bpf_ir_run_passes", "core/bpf_ir.c:bpf_ir_run"]}
{"id": "C43", "title": "Option strings are parsed within bounds", "statement": "For every global/pass option string, parsing either applies exactly the listed options or returns a negative error, and never writes outside its fixed buffers.", "quantifier": "all option strings of any length", "why_tests_cant": "strings are unbounded", "anchors": ["core/aux/kern_utils.c:bpf_ir_init_opts", "core/aux/kern_utils.c:apply_pass_opt", "core/aux/kern_utils.c:apply_global_opt", "core/passes/insn_counter_pass.c:load_param", "core/passes/optimization.c:load_param"]}
{"id": "C44", "title": "The log buffer is never overrun", "statement": "Logging any sequence of messages never writes outside the log buffer, and dumping the log never writes outside its line buffer.", "quantifier": "all message sequences", "why_tests_cant": "unbounded histories", "anchors": ["core/ir_helper.c:bpf_ir_print_to_log", "core/ir_helper.c:bpf_ir_print_log_dbg"]}
{"id": "C45", "title": "Programs above the size limit are rejected", "statement": "Running ePass on a program longer than the configured maximum reports an error and leaves the bytecode unchanged; after a failed run the caller's bytecode is unchanged.", "quantifier": "all programs and options", "why_tests_cant": "all programs", "anchors": ["core/bpf_ir.c:bpf_ir_autorun", "core/ir_cg_norm.c:check_total_insn"]}
{"id": "C46", "title": "Instruction insertion positions", "statement": "Creating an instruction at a requested position (front, back, before jump, after phis, before/after an instruction) puts it exactly there and leaves the order of all other instructions unchanged; only a non-phi requested next to a phi goes behind the leading phis of the block.", "quantifier": "all blocks and anchors", "why_tests_cant": "unbounded blocks", "anchors": ["core/ir_insn.c:bpf_ir_insert_at", "core/ir_insn.c:bpf_ir_insert_at_bb"]}
{"id": "C47", "title": "Stack sanitizer shadow stores are in the shadow half", "statement": "After the stack sanitizer pass every tracked stack store at offset o is followed by a store of 0 of the same width to o+256, the shadow area is initialised to all-ones, and program loads and stores are otherwise unchanged.", "quantifier": "all programs and offsets", "why_tests_cant": "all functions", "anchors": ["core/passes/msan.c:msan", "core/passes/msan.c:modify_storeraw"]}
{"id": "C48", "title": "Heap rewriting only touches non-pointer accesses", "statement": "The heap ecall rewrite changes exactly those loads and stores whose base is computed from loaded scalars, and each rewritten load is guarded by a null check of the map lookup result.", "quantifier": "all IR functions", "why_tests_cant": "all use-def graphs", "anchors": ["core/passes/ecall.c:is_nonptr", "core/passes/ecall.c:translate_heap"]}
{"id": "C49", "title": "Removing zero-offset conditional jumps changes nothing", "statement": "Before block building, conditional jumps to the next instruction are replaced by an unconditional jump with offset 0; the rewritten bytecode makes exactly the same machine steps as the original from every state.", "quantifier": "all legal bytecode programs, machine states and execution lengths", "why_tests_cant": "The claim is about every program and every register state at the jump; a test sees one branch decision.", "anchors": ["core/bpf_ir.c:gen_bb"]}
{"id": "C50", "title": "Lifted helper calls pass the argument registers", "statement": "A helper call in the bytecode becomes an IR call of the same helper whose operands are the values of r1, r2, ... at that point, exactly as many as the helper takes; the sequence of helper calls made by the lifted function is that of the bytecode.", "quantifier": "all well-shaped programs, inputs, helper behaviours and execution lengths", "why_tests_cant": "argument values depend on the path and on which block defined each register", "anchors": ["core/bpf_ir.c:transform_bb", "core/bpf_ir.c:helper_func_arg_num"]}
{"id": "C51", "title": "Values needed later are not overwritten", "statement": "After liveness and conflict analysis and colouring, a virtual register that some path still needs after an instruction is not in the machine register that the instruction writes, and a virtual register needed across a call is not in r0..r5.", "quantifier": "all functions, all paths, all elimination orders", "why_tests_cant": "depends on every path through every control flow graph and on the iteration order of hash tables", "anchors": ["core/ir_cg.c:liveness_analysis", "core/ir_cg.c:conflict_analysis", "core/ir_cg.c:caller_constraint", "core/ir_cg.c:coloring"]}
{"id": "C52", "title": "Register assignment keeps the meaning", "statement": "After liveness analysis, conflict analysis, colouring and coalescing, the function working on the assigned machine registers returns the same value, makes the same helper calls and leaves the same memory as the function working on virtual registers.", "quantifier": "all functions, all executions of any length, all elimination orders, all helper behaviours", "why_tests_cant": "needs every path through every control flow graph and every assignment the hash table order can lead to", "anchors": ["core/ir_cg.c:liveness_analysis", "core/ir_cg.c:conflict_analysis", "core/ir_cg.c:coloring", "core/ir_cg.c:coalescing", "core/ir_cg.c:change_fun_arg"]}
{"id": "C53", "title": "Constants without an encoding are moved to registers", "statement": "spill_const leaves no instruction in a reachable block with a constant where the machine has none (left operand of a subtraction, division, modulo or shift, both operands of a conditional jump). It does so by putting a move of exactly that constant to a new virtual register right in front of the instruction. Other instructions stay as they are, and the function returns the same value, makes the same calls and leaves the same memory.", "quantifier": "all functions, all executions of any length, all helper behaviours", "why_tests_cant": "the constants come from constant propagation on arbitrary programs; each operation, operand order and execution would have to be tried", "anchors": ["core/ir_cg.c:spill_const"]}
{"id": "C54", "title": "The steps before register assignment keep the meaning", "statement": "For a function in SSA form, init_cg, change_call, change_fun_arg, spill_array, spill_const and any number of rounds of spill succeed one after the other, and the resulting function, whose values are in machine registers, virtual registers and stack slots, returns the same value, leaves the same memory and makes the same helper calls with the same arguments as the function in SSA form, on every execution. Each array gets bytes of the stack of its own.", "quantifier": "all functions in which nothing jumps to the entry and every variable is stored before it is loaded, all choices of instructions to spill in any number of rounds, all executions of any length, all helper behaviours", "why_tests_cant": "each step relies on what the steps before have left; the combinations of functions, spill choices and executions are unbounded", "anchors": ["core/ir_cg.c:bpf_ir_compile", "core/ir_cg.c:spill_array", "core/ir_cg.c:spill"]}
{"id": "C55", "title": "Flattening keeps the meaning", "statement": "flatten_ir, which replaces every operand by the register or stack slot of its value and every result by its position, succeeds on an allocated function without phis and throws and keeps the order of the blocks. The flattened program, which works on registers and on memory below the frame pointer only, returns the same value, makes the same helper calls, and leaves the same memory outside of the slots of spilled values, as the function whose values live in registers and slots of their own.", "quantifier": "all allocated functions whose slots do not overlap and whose arrays are used only as the base of addresses, all executions of any length in which the program's own loads and stores stay out of the slots, all helper behaviours", "why_tests_cant": "slots are bytes of the same memory the program uses; that no write to a slot or to memory disturbs another value concerns every function, every address and every execution", "anchors": ["core/ir_cg_norm.c:flatten_ir", "core/ir_cg_norm.c:change_all_value_to_ir_pos", "core/ir_cg_norm.c:cg_to_flatten"]}
{"id": "C56", "title": "The bytecode does what the allocated function does", "statement": "If flattening, normalization, translation and relocation of an allocated function succeed, the resulting bytecode, run from its first slot, returns the value the function returns, with the same helper calls and the same memory outside of the slots of spilled values; it runs for ever if the function does, and returns nothing else.", "quantifier": "all allocated functions on which the layout works and whose operand patterns are translated faithfully (C08, C10-C14), all executions of any length, all helper behaviours", "why_tests_cant": "joins the choice of slots, the expansion of each instruction and the jump offsets for every function and execution", "anchors": ["core/ir_cg_norm.c:bpf_ir_cg_norm", "core/ir_cg_norm.c:flatten_ir", "core/ir_cg_norm.c:relocate"]}
{"id": "C57", "title": "Code generation as a whole keeps the meaning", "statement": "If code generation of a function in SSA form succeeds, from the lowering of calls and arguments over register allocation, spilling, colouring, coalescing, stack layout and the removal of phis to the final bytecode, then running the bytecode returns the value the function returns, with the same helper calls with the same arguments and the same memory outside of the slots of spilled values; it runs for ever if the function does, and returns nothing else.", "quantifier": "all SSA functions that the passes can produce, all control flow graphs, all numbers of spilling rounds, all executions of any length, all helper behaviours", "why_tests_cant": "the interplay of a dozen transformations on every function and execution; whether a register is overwritten too early depends on the choices of the allocator", "anchors": ["core/ir_cg.c:bpf_ir_compile", "core/ir_cg.c:coloring", "core/ir_cg.c:coalescing", "core/ir_cg.c:remove_phi", "core/ir_cg_norm.c:bpf_ir_cg_norm"]}
{"id": "C58", "title": "What the lifter hands to the passes is well-formed SSA", "statement": "For a program the kernel's verifier would look at, if SSA construction ends, bpf_ir_lift succeeds, whether or not the checker is on: the function is in SSA form (each definition is on every way to its uses and in front of them, a phi has an operand for every edge, none stands in the entry block), use lists say exactly who uses what, predecessor and successor arrays agree with each other and with the jumps, every block is found reachable once, with the entry first and each block that runs on directly in front of its successor, and putting the successor arrays in order changes no execution.", "quantifier": "all programs of at most 32768 slots without unreachable slots, jumps to slot 0 or ways off the end, all control flow graphs, loops included", "why_tests_cant": "SSA form and reachability are about all ways through all programs; the algorithm builds incomplete phis and fills them in later", "anchors": ["core/bpf_ir.c:bpf_ir_lift", "core/bpf_ir.c:transform_bb", "core/bpf_ir.c:gen_bb_succ", "core/bpf_ir.c:bpf_ir_pass_postprocess", "core/aux/prog_check.c:bpf_ir_prog_check"]}
{"id": "C59", "title": "The passes that run by default always succeed on a lifted program and keep its meaning", "statement": "For a program the kernel's verifier would look at and the lifter accepts, the passes that run without any options before code generation (removal of trivial phis, translation of ecalls and throws, dead code elimination), each followed by the reordering of successors, the layout of the blocks and the checker, never fail, whether the checker is on or off; the function they hand on is well-formed SSA that returns what the original bytecode returns, with the same memory and the same helper calls, and runs for ever if the bytecode does.", "quantifier": "all programs of at most 32768 slots that are lifted faithfully, all control flow graphs, all initial memories, arguments and helper behaviours, all executions of any length", "why_tests_cant": "success of the checker after every pass and equality of behaviour are claims about every program and every execution", "anchors": ["core/bpf_ir.c:bpf_ir_run", "core/bpf_ir.c:run_single_pass", "core/bpf_ir.c:bpf_ir_pass_postprocess", "core/passes/phi_pass.c:remove_trivial_phi", "core/passes/optimization.c:bpf_ir_optimize_ir"]}
{"id": "C60", "title": "A run without options does not change what the program does", "statement": "If bpf_ir_autorun succeeds on a program without options, the bytecode it hands on returns the value the given bytecode returns, after the same helper calls with the same arguments, with the same memory outside of its own spill slots; it runs for ever if the given bytecode does, and returns nothing else.", "quantifier": "all input programs, all control flow graphs, all initial memories and arguments, all helper behaviours, all executions of any length", "why_tests_cant": "bytecode in, bytecode out: every program, every execution, all choices of the register allocator", "anchors": ["core/bpf_ir.c:bpf_ir_autorun", "core/bpf_ir.c:bpf_ir_lift", "core/bpf_ir.c:bpf_ir_run", "core/ir_cg.c:bpf_ir_compile"]}
{"id": "C61", "title": "The lifter ends, and refuses exactly the programs that read a register before writing it or use unsupported instructions", "statement": "On a program the kernel's verifier would look at, bpf_ir_lift ends, without undefined behaviour and without an assertion failing, whatever the control flow graph. It reports an error if and only if the program has an unsupported instruction (JSET, a wide load of an unknown kind, an unknown helper) or some way through the program reaches an instruction that reads a register which was not written on that way (r1 to r5 and r10 have a value at the start; conditional jumps to the next slot do not count). So every program without these faults goes through lifting and the default passes, and means the same afterwards.", "quantifier": "all programs of at most 32768 slots that use r0 to r10, without unreachable slots, jumps to slot 0 or ways off the end, all control flow graphs, loops included; the if-and-only-if for programs that do not call helper 6 (bpf_trace_printk)", "why_tests_cant": "termination and acceptance are about all programs; reading a variable recurses through predecessors, around loops, and through blocks that are not sealed yet", "anchors": ["core/bpf_ir.c:bpf_ir_lift", "core/bpf_ir.c:transform_bb", "core/bpf_ir.c:read_variable", "core/bpf_ir.c:read_variable_recursive", "core/bpf_ir.c:seal_block"]}
{"id": "C62", "title": "Results do not depend on what helpers leave in r1 to r5", "statement": "A helper call may leave anything in r1 to r5. If no instruction of the program reads one of these registers after a call before the program has written it again (the kernel's verifier refuses such programs), then what the lifter and the passes hand on, and the bytecode a run produces, does what the program does on such a machine: same return value, same calls with the same arguments, same memory, same termination, whatever the helpers leave in r1 to r5 before and after the run.", "quantifier": "all programs as in C59 and C61 without such reads, all memories, arguments, helpers that look only at the arguments they take, all values left in r1 to r5 (they may depend on everything)", "why_tests_cant": "the values a kernel leaves in r1 to r5 differ from call to call and from kernel to kernel; the lifter keeps using its old definitions of these registers after a call", "anchors": ["core/bpf_ir.c:transform_bb", "core/bpf_ir.c:read_variable", "core/bpf_ir.c:bpf_ir_autorun"]}
{"id": "C63", "title": "What the tool writes in log format, it reads back", "statement": "Reading the file that epasstool read -o writes in log format gives the program that was written, instruction by instruction, and the file is not taken for an object file. More generally a file of decimal numbers below 2^64, one in a line, up to the end or an empty line, is read as the program of these numbers.", "quantifier": "all programs of fewer than 2^32 instructions, all values of all fields; all files of lines of at most 254 digits", "why_tests_cant": "all 2^64 values of an instruction and all lengths; a line that does not fit in the buffer is split", "anchors": ["core/epasstool/read.c:print_bpf_prog_dump", "core/epasstool/readlog.c:epass_readlog", "core/epasstool/printlog.c:epass_printlog", "core/epasstool/epasstool.c:is_elf_file"]}
{"id": "C64", "title": "The exit status tells whether every program was processed", "statement": "epasstool read ends with status 0 if and only if the options were accepted, every program of the input went through ePass without an error, and the output file, if asked for, could be opened. In that case the output file holds the program ePass made, in the format asked for; otherwise no output is written.", "quantifier": "all object files and log files, options, and behaviours of ePass on them", "why_tests_cant": "depends on combinations of failures over all the programs of a file", "anchors": ["core/epasstool/read.c:epass_run", "core/epasstool/read.c:epass_read", "core/epasstool/readlog.c:epass_readlog"]}
{"id": "C65", "title": "The command line is understood as the usage message says, and safely", "statement": "A command with options in any order and one file is understood as the usage message says, the last value of a repeated option counting. Nothing else is understood: everything else gets the usage message. No argument is written behind the buffer it is copied to.", "quantifier": "all lists of arguments (safety: of fewer than 64 characters each)", "why_tests_cant": "arbitrary lists of arbitrary strings; option values that look like options", "anchors": ["core/epasstool/epasstool.c:parse_cli"]}
{"id": "C66", "title": "Below the limit the instruction counter changes nothing", "statement": "The function insn_counter makes follows every execution of the original one, with the same results, memory and helper calls, as long as the blocks the execution goes through do not cost more than the limit (the cost of a block being the number filled in for it). Where the limit is exceeded it throws, having had exactly the effects the original had up to some point. Conversely it returns only what the original returns, and throws only where the original throws or the limit is exceeded.", "quantifier": "all well-shaped functions, limits below 2^31, both variants of the pass, all worlds, states and numbers of steps", "why_tests_cant": "relates all executions of two functions, with loops of any number of rounds", "anchors": ["core/passes/insn_counter_pass.c:insn_counter", "core/ir_cg.c:replace_builtin_const"]}
{"id": "C67", "title": "Up to 100 jumps the jump counter changes nothing", "statement": "The function jmp_complexity makes follows every execution of the original one as long as it has passed at most 100 jumps; after that it throws. A function without jumps is left as it is.", "quantifier": "all well-shaped functions, worlds, states and numbers of steps", "why_tests_cant": "relates all executions of two functions, with loops of any number of rounds", "anchors": ["core/passes/jmp_complexity.c:jmp_complexity"]}
{"id": "C68", "title": "Calls have the arguments the helper takes", "statement": "In a lifted function a call of a helper has as many operands as the helper has parameters according to the kernel's header, so no register is read that the call does not use.", "quantifier": "all programs, all calls in them, all helpers of the table", "why_tests_cant": "212 helpers, each in arbitrary programs; a wrong entry shows only if a register without a value gets read", "anchors": ["core/bpf_ir.c:helper_func_arg_num", "core/bpf_ir.c:transform_bb"]}
{"id": "C69", "title": "The passes that can be turned on do their work on every program", "statement": "For every program that can be lifted, insn_counter, jmp_complexity and div_by_zero succeed. With a counter the result takes a bounded number of steps whatever the input, does what the bytecode does (same returned value, memory and helper calls) unless the limit is exceeded, and throws if the bytecode would run for ever. With div_by_zero no guarded division is reached with a divisor of zero, and the result does what the bytecode does unless the bytecode gets to a guarded division by zero; then it throws.", "quantifier": "all well-shaped, supported, initialised programs of up to 32768 slots, all limits below 2^31, both variants of the counter, all memories, arguments and helpers", "why_tests_cant": "quantifies over all programs and all their executions, including those that never end", "anchors": ["core/passes/insn_counter_pass.c:insn_counter", "core/passes/jmp_complexity.c:jmp_complexity", "core/passes/div_by_zero.c:div_by_zero", "core/bpf_ir.c:bpf_ir_run"]}
{"id": "C70", "title": "A run with guarded divisions is right from bytecode to bytecode", "statement": "With div_by_zero turned on, the whole run (lifting, the pass, translation of throws, optimisation, code generation) hands on bytecode that returns what the original returns, with the same memory outside the frame and the same helper calls, and runs for ever if the original does, as long as no guarded division gets a divisor of zero; if one does, it returns 1. All the passes in front of code generation succeed.", "quantifier": "all well-shaped, initialised programs of up to 32768 slots for which code generation succeeds, all memories, arguments and helpers", "why_tests_cant": "quantifies over all programs and all their executions through every stage of the pipeline", "anchors": ["core/passes/div_by_zero.c:div_by_zero", "core/passes/translate_throw.c:translate_throw", "core/bpf_ir.c:bpf_ir_run", "core/bpf_ir.c:bpf_ir_autorun", "core/ir_cg_norm.c:bpf_ir_compile"]}
{"id": "C71", "title": "The listing of a program says what it does", "statement": "The listing printed of a program (in the log, and by epasstool print) is the program in assembly language, one numbered line for each instruction; printing it reads no memory that is not the program's and no message overflows its buffer. Two programs whose listings read the same do the same in every state.", "quantifier": "all programs made of instructions of the machine, in particular all registers, offsets and constants, and all executions of them", "why_tests_cant": "quantifies over pairs of programs and all their executions; that no two different instructions share a line is a statement about 2^64 slots squared", "anchors": ["core/aux/disasm.c:bpf_ir_print_bpf_insn", "core/bpf_ir.c:print_bpf_prog", "core/bpf_ir.c:print_bpf_insn_simple", "core/bpf_ir.c:print_pre_ir_cfg", "core/epasstool/print.c:print_bpf_prog"]}
{"id": "C72", "title": "The linked lists of instructions are sequences", "statement": "Inserting an instruction (at any position), erasing one, creating a block and splitting a block do to the doubly linked lists in memory exactly what they do to the sequences of instructions of the blocks, touch no other list, never read or write freed memory and free what they take out; first, last, next, previous instruction and the length are those of the sequence. list_for_each_entry visits the instructions of a block in order, each once, if what is done with one leaves it in the list and leaves what is behind it alone; list_for_each_entry_safe also if it is erased. The plain loop reads freed memory if something is erased, and the safe one runs into another list if the block is split behind the current instruction.", "quantifier": "all functions, blocks, positions and lengths of lists, all loop bodies", "why_tests_cant": "quantifies over all heaps and all bodies of loops; a wrong back pointer or a read of freed memory shows only in other code that comes later", "anchors": ["core/include/linux/list.h:list_add", "core/include/linux/list.h:list_add_tail", "core/include/linux/list.h:list_del", "core/include/linux/list.h:list_for_each_entry_safe", "core/ir_insn.c:bpf_ir_insert_at", "core/ir_insn.c:bpf_ir_insert_at_bb", "core/ir_insn.c:bpf_ir_erase_insn", "core/ir_bb.c:bpf_ir_split_bb"]}
{"id": "C73", "title": "Programs that fit in the registers are rewritten faithfully", "statement": "When ePass, run without options, rewrites a program without spilling any value to the stack, the new program does exactly what the old one does, on the same machine and from the same state: it returns the same value after the same helper calls with the same arguments and leaves the same memory, byte for byte; it runs for ever if the old one does. This holds whatever registers the allocator has chosen. It is known to fail when more than one argument is used, or when values that meet at a join are copied in a bad order.", "quantifier": "all programs for which the run succeeds and spills nothing, all machines, initial states and executions; all choices of the register allocator", "why_tests_cant": "quantifies over programs, helper functions, states and executions of any length; that no two values needed at the same time share a register is an invariant of allocation that a run shows only for one program", "anchors": ["core/bpf_ir.c:bpf_ir_autorun", "core/ir_cg.c:bpf_ir_compile", "core/ir_cg.c:remove_phi", "core/ir_cg.c:liveness_analysis", "core/ir_cg.c:coloring"]}
{"id": "C74", "title": "Guarded divisions in programs that fit in the registers", "statement": "When ePass, run with div_by_zero, rewrites a program without spilling any value to the stack, the new program does exactly what the old one does, on the same machine and from the same state, in every execution in which no guarded division gets a divisor of zero; in an execution in which one does, it returns 1. This holds whatever registers the allocator has chosen and whatever helpers leave in r1 to r5. It is known to fail when a phi names a block that the guards split.", "quantifier": "all programs for which the run succeeds and spills nothing, all machines, initial states and executions; all choices of the register allocator", "why_tests_cant": "quantifies over programs, helper functions, states and executions of any length, and over all choices of registers", "anchors": ["core/passes/div_by_zero.c:div_by_zero", "core/bpf_ir.c:bpf_ir_autorun", "core/ir_cg.c:bpf_ir_compile"]}
{"id": "C75", "title": "Listings of the IR", "statement": "Printing a function numbers its blocks and values uniquely, always ends, and never makes a run fail: with the listings that ePass prints after lifting and after every pass, a run gives the same result as without them. Two programs that are lifted to functions with the same listing do the same: they return the same value, after the same calls, with the same memory, or both run for ever. It is known to fail for negations and byte swaps, whose width is not printed, and for functions made by passes with assignments or constants of 32 bits.", "quantifier": "all functions that the lifter and the default passes make from any program, all positions, flags and pointer values that are printed, all machines, states and executions", "why_tests_cant": "quantifies over pairs of programs with the same text and over all their executions", "anchors": ["core/ir_helper.c:print_ir_prog", "core/ir_helper.c:tag_ir", "core/ir_helper.c:print_ir_insn_full", "core/bpf_ir.c:run_single_pass"]}
{"id": "C76", "title": "Code generation never crashes", "statement": "Given a program that the lifter accepts, a run of ePass (without options, or with div_by_zero) comes to an end and either hands on bytecode or reports an error: liveness analysis, register allocation with any number of spills, coalescing, removal of phis, flattening, normalisation and translation never abort the process, never read or write outside of an array and never loop for ever. It is known to fail for programs that store to an address that is a constant, and for programs that use the frame pointer itself as an operand.", "quantifier": "all programs that the lifter accepts whose stores go to computed addresses and whose uses of the frame pointer are accesses at constant offsets or additions of constants; all functions of the shape that the passes keep", "why_tests_cant": "quantifies over programs and over all rounds of spilling; that internal assertions (DBGASSERT, CRITICAL) cannot be reached is an invariant of all steps", "anchors": ["core/ir_cg.c:bpf_ir_compile", "core/ir_cg.c:make_conflict", "core/ir_cg.c:spill", "core/ir_cg.c:remove_phi", "core/ir_cg_norm.c:normalize", "core/ir_cg_norm.c:translate", "core/passes/cg_prepare.c:bpf_ir_cg_add_stack_offset_pre_cg"]}
{"id": "C77", "title": "Builtin constants become the number of instructions of their block", "statement": "The placeholder that a counter adds (IR_BUILTIN_BB_INSN_CNT) has in the bytecode the number of instructions of its block: never less than the number of machine instructions that the block gets, and more only by the instructions for which nothing is emitted. Nothing else of the code depends on the placeholder or is changed by replacing it. The placeholder for critical counts has the number of instructions of the block and of the chain of single predecessors without counter in front of it. In runs without counters the replacement changes nothing.", "quantifier": "all lists of blocks handed to emission in which the placeholders stand where insn_counter puts them, of any length; all programs for the last sentence", "why_tests_cant": "quantifies over all blocks; the count is taken after normalisation and has to agree with what translation emits afterwards", "anchors": ["core/ir_cg_norm.c:replace_builtin_const", "core/ir_cg_norm.c:bb_insn_cnt", "core/ir_cg_norm.c:bb_insn_critical_cnt", "core/passes/insn_counter_pass.c:add_counter_to_bb"]}
{"id": "C78", "title": "Memory of functions is freed once", "statement": "However a function is edited through the editing interface (creating, erasing and replacing instructions, phi operands, creating, connecting, disconnecting and splitting blocks, error blocks, finding reachable blocks), no memory is freed that is not allocated, neither by the edits nor by bpf_ir_free_function afterwards, and memory that does not belong to the function is left alone. If all blocks are reachable, bpf_ir_free_function frees everything that the function and its edits have allocated.", "quantifier": "all histories of edits of any length, with any instructions, operands and blocks, from every function whose memory is in order", "why_tests_cant": "quantifies over all histories of edits; leaks and double frees show only on particular sequences", "anchors": ["core/bpf_ir.c:bpf_ir_free_function", "core/ir_insn.c:bpf_ir_erase_insn", "core/ir_insn.c:bpf_ir_replace_all_usage", "core/ir_bb.c:bpf_ir_split_bb", "core/array.c:bpf_ir_array_push"]}
{"id": "C79", "title": "Memory of pass parameters is freed once", "statement": "After bpf_ir_init_opts with any option strings, accepted or refused, bpf_ir_free_opts frees the parameters that were loaded, each once, leaves no pass with a parameter, touches no other memory, and can be called again without effect. All memory allocated for parameters is freed if no two options name the same pass.", "quantifier": "all option strings whose options fit the buffers, all lists of builtin and custom passes with any loaders that unload their parameters", "why_tests_cant": "quantifies over all option strings and configurations, including those that fail half way", "anchors": ["core/aux/kern_utils.c:bpf_ir_free_opts", "core/aux/kern_utils.c:apply_pass_opt", "core/passes/insn_counter_pass.c:load_param", "core/passes/optimization.c:load_param"]}
{"id": "C80", "title": "What is emitted is a program of whole instructions", "statement": "When bpf_ir_autorun replaces a program, the new program is one that a loader can read: every slot is an instruction or the second half of a wide load, both halves of every wide load are there, every jump leads to the start of an instruction inside the program, and control does not run past the end.", "quantifier": "all block lists that code generation can be given and all programs whose run ends without an error, with at most 32768 slots of output and no load from a constant address", "why_tests_cant": "every combination of operations, operand kinds, widths and jump distances must give an existing encoding; tests see a few programs, and the loader rejects a malformed one only when it occurs", "anchors": ["core/ir_cg_norm.c:703-1376", "core/include/ir_cg.h"]}
{"id": "C81", "title": "No dead code is introduced", "statement": "When bpf_ir_autorun replaces a program in which every instruction can be reached, control can reach every instruction of the new program as well: no instruction is left behind a jump, a return or an erased branch. (The kernel rejects programs with unreachable instructions.)", "quantifier": "all block lists that code generation can be given and all programs whose run ends without an error, with at most 32768 slots of output", "why_tests_cant": "depends on how reachability, block layout, erased and added jumps, spilling of constants and normalization work together on every control-flow graph; a test sees a few graphs", "anchors": ["core/ir_cg_norm.c:250-304", "core/ir_cg_norm.c:597-660", "core/bpf_ir.c:bpf_ir_autorun", "core/ir_bb.c"]}
