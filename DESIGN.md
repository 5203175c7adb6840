# ePass in Lean 4: design of the model and the proofs

## 1. What is modelled

ePass turns eBPF bytecode into an SSA IR, runs passes over it and compiles it
back to bytecode. The model follows the C sources under `/repo/core` function by
function. Every model definition cites the file and lines it follows and says
where it simplifies.

Outcomes. C functions that can fail are modelled in the `Out` monad of
`Verif/Base.lean`:

* `ok a`   : the function returned,
* `err`    : `RAISE_ERROR` / non-zero `env->err`,
* `crit`   : `CRITICAL` / `DBGASSERT` (process abort),
* `ub`     : undefined behaviour in C (out of bounds access, division by zero...).

A theorem that says "succeeds" therefore excludes errors, aborts and undefined
behaviour separately.

## 2. Trusted base

* The Lean 4.33.0 kernel. Every theorem listed in `MANIFEST.json` depends on at most
  `propext`, `Classical.choice` and `Quot.sound` (`#print axioms`). There is no `sorry`,
  `admit`, `native_decide`, `bv_decide` and no axiom of our own. Concrete witnesses use
  `decide +kernel`, that is, evaluation by the kernel.
* The correspondence between the C text and the Lean definitions, which is by reading.
  Every definition cites file and lines.
* The specifications in `Verif/Spec/*.lean`, which are written without reference to the
  functions of the model:
  `Bpf` (the eBPF machine), `Cfg` (control flow of bytecode), `Ir` (meaning of the SSA IR),
  `Flat` (meaning of one allocated instruction), `Blocks` (a program of blocks),
  `Loc`/`Place` (meaning of a function whose values have places), `Uses`, `WellFormed`,
  `Ssa`, `Shape`, `Trail`, `Paths`, `Preserve` (equal behaviour), `Live` (a value is needed
  on some path), `Alloc`, `PhiOut`, `Dead`, `Counter`, `Held`, `Opts`, `Agree`,
  `Lower`, `Arrays`, `Consts`, `Spill`, `Front` (what the steps before register assignment do),
  `Msan`, `Ecall` (what these passes add), `Flatten` (slots of values in memory),
  `Compile` (bytecode that does what a function does), `Lifted`, `Rewrite` (a whole run),
  `Init` (registers that are read before they are written), `Clobber` (registers that calls spoil), `Listing` (assembly language), `Heap` (memory that a function owns),
  `Formed` (a program of whole instructions), `Kinds` (what registers hold: the frame pointer, something computed, or anything else),
  `Apart` (control does not merge behind divisions).
* Helper calls are an arbitrary oracle that may depend on the whole history, memory is a
  flat little-endian byte memory.

### Modelled code

| area | C code | Lean |
|------|--------|------|
| dynamic array | `array.c` | `Arr` |
| pointer set | `ptrset.c` | `PtrSet` |
| blocks from bytecode | `bpf_ir.c` 247-558 | `GenBB` |
| lifter | `bpf_ir.c` 5-217, 601-1500, 1557-1584 | `Lift` |
| layout, reachable and end blocks | `bpf_ir.c` `gen_bb_succ`, `find_chain_head`, `add_reach`, `gen_end_bbs` | `Layout` |
| editing interface | `ir_insn.c`, `ir_bb.c`, `ir_value.c` | `IR`, `Edit` |
| linked lists | `include/linux/list.h` (add, del, empty, both loops), their use in `ir_insn.c` 196-317 and `ir_bb.c` | `Links` |
| memory of pass parameters | `aux/kern_utils.c` 4-90, 190-247 | `Heap/Opts` |
| memory of functions | `array.c`, `ir_insn.c` 5-360, `ir_bb.c`, `bpf_ir.c` 1523-1555 | `Heap` |
| checker | `aux/prog_check.c` | `Check` |
| passes | `passes/optimization.c`, `phi_pass.c`, `code_compaction.c`, `div_by_zero.c`, `jmp_complexity.c`, `insn_counter_pass.c`, `translate_throw.c`, `msan.c`, `ecall.c` | `Dead`, `Phi`, `Compact`, `DivZero` (with `Guard`), `Count`, `Throw`, `Msan`, `Ecall` |
| code generation | `ir_cg.c`: liveness, conflicts, `mcs`, `pre_spill`, `spill_array`, `spill_const`, `spill`, colouring, coalescing, `remove_phi`, `change_call`, `change_fun_arg`, stack layout | `Live`, `RA`, `Stack`, `Cg`, `RemPhi`, `Loc`; `bpf_ir_compile` as a whole: `Compile` |
| flattening, normalisation, translation, emission | `ir_cg_norm.c` | `Flatten`, `Norm`, `Emit` |
| what runs after each pass, `bpf_ir_lift`, a run without options | `bpf_ir.c` 1762-1850, 1910-1991; `ir_cg.c` 16-25, 1316-1400; `epasstool.c` 10-18 | `Pipe` |
| pass manager, driver, log | `bpf_ir.c` 1777-1850, 1941-1991, `ir_helper.c` 738-786 | `Drive` |
| options | `aux/kern_utils.c`, `lli.c`, option loaders of the passes | `Opts` |
| the tool: command line, log format, exit status | `epasstool/epasstool.c` 78-223, `read.c`, `readlog.c`, `printlog.c` 33-43 | `Tool` |
| listings of the IR | `ir_helper.c` 35-650 | `Show` |
| listings of bytecode | `aux/disasm.c`, `bpf_ir.c` 560-580, 1852-1906, `epasstool/print.c` 5-17 | `Tool/Disasm` |

### Not modelled

Failing allocation (`malloc` succeeds) and freeing outside of the editing interface, `bpf_ir_free_function` and `bpf_ir_free_opts`, printing of the IR in code generation (`print_ir_prog_cg`) and of single pieces for debugging (the bounds of the log
buffers are in `Drive`), timing, the kernel glue in `/repo/ePass-kernel`, libbpf,
the interaction with the verifier (`venv`), masking and other passes not named above,
`to_cssa` (never called). Pointer identity is modelled by numbers, linked lists by lists
(justified by C72), and user arrays by lists (justified by C01). Pointer sets inside the allocator are duplicate free
lists in an arbitrary order, and the theorems hold for every order.

## 3. Per property

"Proved" means the statement of `properties.jsonl` in full. For "partial" the theorem gives the
conditions as hypotheses, and unless said otherwise every condition is necessary: a
`..._violated` theorem shows on a concrete input that the code breaks the property without it.

| id | proof | conditions that the code needs (each with a witness) |
|----|----|----|
| C01 | refinement of (buffer, num, cap) to `List`, induction over operation histories |  |
| C02 | refinement of the slot table to a finite set, induction over histories | A key that is present is inserted again after an earlier key of its probe sequence was deleted: the tombstone is reused and the key is stored twice, so one delete leaves it in the set and the count is wrong. |
| C03 | as C02, folds over the table | Union and intersection build a set whose size is the number of elements; with a multiple of 31 (also 0) the 31-step probe does not reach every slot and insertion fails. |
| C04 | the probe visits every slot because 31 and 8*2^k are coprime | (initial sizes divisible by 31 would fail; the code starts from 8) |
| C05 | bit-vector round trip of the two slots, lifted to lists of instructions |  |
| C06 | induction over the blocks and instructions; writes stay in the array |  |
| C07 | positions of blocks by induction over the layout | A distance of 32768 or more is truncated to 16 bits without an error. |
| C08 | invariant of the traversal on an arbitrary finite graph | Two fall-through predecessors (block emitted twice), fall-through into the entry, a fall-through cycle (does not end). |
| C09 | simulation of the block program by the linear array, both directions and divergence | Uses the exclusions of C07, C08 and C10-C14. |
| C10-C14 | case analysis over operations, widths and placements, for all register contents and memories | `r1 = r1 - r1` is compiled to `r1 = -r1; r1 += r1`; 32-bit add of 0 does not clear the upper half; non-commutative operations with aliasing are refused; 32-bit comparison of two constants with a 64-bit one; 64-bit constant to the stack; stack to stack copies; 32-bit copy emitted as 64-bit; return of a 64-bit constant or of a stack slot; unary and element pointer on the stack; narrow loads. |
| C15, C16 | invariants of the scan; the specification is the successor relation of `Spec/Cfg` | A jump to slot 0 gives no block there; beyond 32768 slots the 16-bit positions wrap. |
| C17 | equality of meaning per instruction | `mov32` between registers keeps the upper half; `mov32` of a negative immediate sign extends. |
| C18 | equality of meaning per instruction | Sign-extending loads are lifted as plain loads. |
| C19 | decision table over all opcodes, induction over programs | A slot with opcode 0 is skipped. |
| C20 | simulation between the bytecode machine and the SSA semantics; invariants of the construction of Braun et al. (incomplete phis, sealed blocks, recursive reads); in both directions: what the machine gets to the IR gets to, the same operation on the same values (`C20_reaching_partial`), and what the IR gets to the machine gets to (`C20_from_partial`, Lift/Back.lean) | Predecessors that cannot be reached leave a phi operand undefined; a loop to the start of the program; writing r10. |
| C21 | counting invariant over all editing operations | The lifter registers a user at most once although it may refer twice; replacing a value by itself duplicates users. |
| C22 | invariant by induction over edits |  |
| C23 | simulation | Phis of the successors keep the label of the old block. |
| C24 | iff between the checker and a declarative `WellFormed` | (the rules themselves do not look at moves and at phi labels) |
| C25 | simulation in both directions, induction over the loop of the pass |  |
| C26 | as C25 | With two or more stores to a variable that is never loaded the loop over the users skips every second one and the pass fails. |
| C27 | value lemma for shift pairs, simulation on SSA functions | Pairs of different width; a left shift with a second use makes the pass fail; the 32-bit copy is emitted as a 64-bit one. |
| C28 | invariant over the pass (`Guard`), simulation | A division first in its block, moduli, constant divisors, 32-bit divisors, phis behind the block that is split. |
| C29, C30 | every cycle contains a counter; ranking function over executions | A jump to the entry (the counter is reset, or not present), negative limits. |
| C31 | data flow fixpoint equals meet over paths; simulation | `translate_throw_df`: reservations held on one way only, through a loop, or with a jump to the entry; it also discards NULL reservations. The pass that the compiler does run discards nothing. |
| C32 | structural and simulation | The pass that the compiler runs returns 1, not 0. |
| C33 | simulation on SSA functions (dominance) | Phis whose operands are the same constant are kept. |
| C34 | inductive path specification `IR.Needed`; termination of the work list by counting |  |
| C35 | invariant of the greedy loop, any order of conflicts |  |
| C36 | maximum cardinality search, clique argument | The order used by the code does not start with the machine registers: nothing is spilled and colouring fails. |
| C37 | invariant of the merging loop | Copies between values that are in conflict are merged. |
| C38 | invariant over requests; simulation for the moved stack | Sizes are `u32`, offsets `s16`; four uses of the stack pointer that are not moved. `C38_places_partial` is the same on places (`Spec/Moved`), after registers are assigned. |
| C39 | simulation on places (`Spec/Loc`): sequential copies at the end of the predecessors equal the parallel meaning of the phis | Lost copy, swap, and two successors whose phis share a register. |
| C40 | invariant of the edits (`Cg/SpillInv`), simulation with additional instructions (`Cg/Feed`, `Cg/SpillSim`), composition over the list (`Cg/SpillAll`) |  |
| C41 | invariant of the three edits (`Cg/LowerInv`), simulation from SSA to places (`Cg/LowerSim`) | A jump to the entry: the arguments are copied from r1..r5 again after a call destroyed them. |
| C42 | decision logic and traces | An error of the first list of passes is ignored. |
| C43 | bounds as `ub` outcomes, refinement to a declarative option syntax | Options longer than the fixed buffers overrun them; empty and too large numbers are accepted. |
| C44 | bounds as `ub` outcomes | Messages of 200 or more characters, lines of 1000 or more. |
| C45 | decision logic | A fake run and a failed allocation leave the bytecode changed. |
| C46 | list equations |  |
| C47 | invariant of the edits (`Msan/Lemmas`), simulation with the shadow memory (`Msan/Sim`) | One spilled value, and the shadow of the lowest bytes of the stack is the slot of that value; a jump to the entry fills the shadow again. |
| C48 | recursion over the def-use graph, invariant of the edits (`Ecall/Lemmas`, `Ecall/Whole`), backwards along the execution (`Ecall/Run`) | A pointer reloaded from the stack counts as a heap address; an ecall directly in front of a redirected load makes the loop run into another list; phis behind a split block keep the old label; stores are not checked. |
| C49 | simulation of bytecode |  |
| C50 | as C20 | `trace_printk` takes a variable number of arguments. |
| C51 | from C34: the conflicts cover every pair of values needed at the same time |  |
| C52 | simulation from virtual to machine registers (`Loc/Alloc`) | With two function arguments the copy of one overwrites the other before it is copied. |
| C53 | invariant of the edits (`Cg/ConstInv`), simulation with additional instructions (`Cg/Feed`, `Cg/ConstFn`) |  |
| C54 | each step leaves what the next one needs (`Cg/LowerReady`, `Cg/Fresh`, `Cg/ArrayProps`), the simulations are composed | nothing jumps to the entry; variables are stored before they are loaded |
| C55 | lock-step simulation (`Flatten/Exec`, `Flatten/Run`) between values in places of their own and values in registers and memory | An array used as a value is read instead of its address being taken. |
| C56 | C55 composed with C09 | as C08-C14 |
| C57 | invariants of every step (`Compile/Shape`, `LowerStep`, `FrontStep`, `SpillStep`, `Alloc`, `Assign`, `Place`), then C54, C52, C38, C39 and C56 composed | Four small functions whose bytecode returns something else: two arguments, a phi used after its loop, two phis that change places, a variable merged with a value. The conditions on the choices of the allocator (`Regular`) are decidable, `Compile/Check` has a test. |
| C58 | invariants of the lifter's state: use lists (`Lift/Users`), SSA form and order (`Lift/Good`), the way control goes (`Lift/Flow`), the shape of each instruction (`Lift/Insns`); `Pipe/Lift` turns them into `Code` (`Pipe/Code`), for which the checker (C24) and the layout (C08) succeed | A program from which control can run off the end, a helper number 0 or a byte swap of another width is rejected by the checker. |
| C59 | each pass keeps `Code` (`Pipe/Shrink`, `Pipe/Passes`), on which the next one and everything behind it succeeds; C20, C33 and C25 composed | – |
| C60 | C59, then the marking of the uses of r10 (`Pipe/Ready`), `Code` gives the conditions of C57, C57; the machines of the two programs need not agree on r1 to r5 after a call | Five ordinary programs that a run breaks, from bytecode to bytecode: the Fibonacci numbers (a copy for a phi is made before the loop is left), two variables that change places in a loop, arguments that overwrite each other, `r2 = r10; r1 = *(r2 - 8)` and `r2 = r10; r2 -= 8` when a value is spilled. |
| C61 | Every call of `read_variable` ends: it either writes an entry for a block that had none, or steps to the only predecessor, which is nearer to the entry; `transform_bb` fills one block more at each level (`Lift/Total`). What errors mean is carried along as a path of blocks without a write, turned into a path of slots in `Lift/Accept`. Conversely the value maps of C20 have no value for a register that some path leaves unwritten (`Lift/Reject`) | A conditional jump to the next slot is turned into `ja` before the lifter looks at it, so it may read what it likes. Helper 6 reads those of r3 to r5 that happen to have an entry in the block; the second direction leaves it out. |
| C62 | The original on the real machine and on one whose helpers keep r1 to r5 run in step, with states that differ at most in registers that a call may have spoilt at that slot (`Pipe/Clobber`); then C61 and C60 `C62_typed_partial` has the conditions on the use of r10 on the bytecode (`Typed`, as in C80, and accesses through r10 inside of the 512 bytes of the stack, `FrameIn InStack`). | A program that reads r1 after a call (the verifier refuses it) is accepted, and r1 is taken to hold what it held before. |
| C63 | Digits of numbers and lines by induction; the instruction word bit by bit | Lines of more than 255 characters become several instructions; text is read as an instruction with opcode 0. |
| C64 | Case analysis of `epass_run`, induction over the programs of the file; what ePass does with a program is a parameter | The status is that of the last program only, and its output overwrites the others'; with `--pass-only` a failed lift gives 0; an object file without programs makes the tool pass NULL to libbpf. |
| C65 | Refinement to a declarative syntax (`Item`), both directions; bounds as `ub` outcomes | Arguments of 64 characters or more overrun their buffers. An empty file name is ignored. |
| C66 | Simulation: the old function against the new one with a counter that never exceeds the sum of the costs of the blocks entered (`Count.Kept.sim`); both directions | The labels of phis whose block has been split must be brought up to date (`relabel`): the pass leaves them stale, and the IR run is stuck there (`C66_violated_labels`). Later steps of the code do not depend on these labels alone: on the examples that were run, the bytecode was right although the IR, read as it stands, is stuck. |
| C67 | The same simulation, cost = number of jumps of a block | As C66. |
| C68 | The whole table against the prototypes in `linux/bpf.h` (all 212 entries), then by C58 for all calls in lifted functions | Five helpers get one argument too many (`sk_storage_get`, `inode_storage_get`, `task_storage_get`, `cgrp_storage_get`, `timer_set_callback`: the table counts an argument the verifier adds): r5 or r3 is read although the program has not set it (`C68_violated_storage`). |
| C69 | C61 gives the lifted function and what it does; its invariant (`Code`) implies what C28, C66 and C67 ask for (every cycle has a jump because a block without one stands in front of its successor in the layout); success of the passes by following their edits (`Count/Success.lean`); the results are put together in `LiftsUnless` (Spec/Limited.lean) | Labels of phis are brought up to date first (`C66_violated_labels`), no phis behind divisions (`C28_violated_phi`). |
| C70 | The invariant `Code` of C58–C60 is carried through each edit of `addCheck` (Pipe/GuardedCode.lean: the split, the comparison, the block with the throw, replaced by a return), then over all divisions by induction (Pipe/GuardedLoop.lean); what the guarded function does is C28/C69, the rest of the run is C60's (`codegen_of`); `C70_bytecode_partial` says it of the two programs only, with the backward simulation of C20 and of the removal of trivial phis (`Mirrors`, IR/Skip.lean) `C70_typed_partial`: the condition on r10 is on the bytecode (C80). `C70_apart_partial`: `NoLabels` is replaced by a condition on the bytecode, control does not merge behind divisions (`Apart`, `Spec/Apart`); then a phi that is fed from a block with a division has one operand (`phi_alone`), and such phis have been removed (C33). The program of `C70_violated_phi` is not `Apart` (`exMerge_apart`). | Where values are merged behind a block with a guarded division the copy for the phi is made in front of the division (`C70_violated_phi`: 5 instead of 14/5). Divisions that are not guarded (C28) do what they did. |
| C71 | Every decodable slot is printed as its text in Spec/Listing.lean (by class of instruction); numbers can be read back from what they are printed as, so each line determines the instruction, and lines can be told apart by newline and number (Tool/ListingProps.lean) | In mode `bpf` the kind of a wide load is not shown (`C71_violated_kind`), in mode `detail` the upper half of its number is not (`C71_violated_detail`); with both lines everything is (`C71_detail`). Slots that are not instructions can make the printer read outside its tables (`C71_violated_table`, `C71_violated_null`), and with verbose level 3 a wide load is read past a local copy (`C71_violated_blocks`). |
| C72 | Refinement: nodes with two pointers in a heap with freed nodes against the sequences of `Edit` (`Spec/Links`: `IsList`, `Holds`); loops by induction over what is left, against `foldlM` over the sequence for any loop body and any relation of states | Loops are given a number of rounds; running out of it is `ub`, and every list is shown to need one more than its length. `bpf_ir_handle_ecalls` splits the block it goes through (`C72_violated_split`, C48). |
| C73 | From C34-C37, C39, C52-C57: when nothing is spilled, two values needed at the same time have different registers and copies of phis do not disturb each other, which gives `Regular` (a hypothesis of C57) for all choices of the allocator; composed with C62 for whole runs, so that both programs run on the same machine and memory is compared everywhere `C73_typed_partial` has the condition on r10 on the bytecode (`Typed`, as in C80). | Missing: more than one argument used, phis whose copies disturb each other (both needed, `C73_violated`); r10 in other forms than `r10 + constant` and accesses at constant offsets; patterns that are translated wrongly (`Emit.Plain`, C10-C14). |
| C74 | C70 (runs with `div_by_zero`) with the registers of C73: the hypothesis `Regular` of C70 is derived for runs that spill nothing, both programs run on the same machine, helpers may clobber r1-r5 (C62) `C74_typed_partial`: the condition on r10 is on the bytecode (C80). `C74_apart_partial`: so is the condition on phis (`Apart`, C70). | Missing: what is missing of C70 (`NoLabels`, needed: `C70_violated_phi`; divisions that are not guarded) and of C73. `C74_bytecode_partial` says it of the two programs only: they do the same, or the given one gets to a division by a register that holds zero (`ZeroDivides`, Spec/Rewrite.lean) and the other returns 1. |
| C75 | The text of each instruction can be read back from the left (Show/Text, Insn, Line: every token stops where the next begins), so equal listings give functions that are equal up to names (`text_inj`, `listing_inj`); `tag_ir` by induction over its recursion (numbers are unique, every reachable block has one); runs by simulation from names to names (Show/Sim, Run); `Code`, the invariant of C58-C60, gives all conditions, so that the theorems hold for lifted programs and behind the default passes | Widths of `neg` and byte swaps are not printed (`C75_violated_neg`, `_swap`); for functions that passes make: width of assignments, upper half of 32-bit constants, the mark of an offset 0 (`C75_violated_made`); constants of unknown width, unknown kinds of wide constants and widths end the run when printed (`C75_violated_loud`). The listings in code generation (`print_ir_prog_cg`) are not modelled. The pass in front of code generation is covered under the condition `Form` of C60. |
| C76 | `Safe`: the outcome is `ok` or `err`, never `crit` or `ub`. Invariants beside those of C57: users of a value are counted no more often than they refer to it (`Tight`), so liveness never follows a user that is none; no value is an operand of itself (`NoSelf`), so no vertex conflicts with itself; operand counts and widths (`Sturdy`) are kept by lowering and every round of spilling; the recursions of liveness and of the conflicts of phis end within as many calls as there are blocks (`Live/Total`: along falls the layout grows, `Steps`); after colouring every value has a register below 10 (`ColorSafe`); what is flattened is `Firm`, and normalisation and translation of `Firm` instructions do not fail an assertion (`EmitSafe`, over all cases of the translation). `Code`, the invariant of C58-C60, gives all conditions, so that whole runs follow (`C76_run_partial`, `C76_guarded_partial`) `C76_typed_partial` and `C76_accepted_partial` have all conditions on the bytecode (`Typed`, as in C80). With `div_by_zero`: `C76_typed_guarded_partial`. `C76_apart_partial`: from the bytecode alone with `div_by_zero` (`Apart`, C70). | Stores to constant addresses abort (`C76_violated_store`); uses of r10 as an operand read `regs[10]` of ten, because `add_stack_offset_pre_cg` walks along an array that it shortens (`C76_violated_sp`); calls of helper 6, and variables and arrays of passes (code generation alone is safe with them under the conditions of `Compile.compile_safe`), are left out. Stack use and time are not modelled |
| C77 | `replace_builtin_const` between `normalize` and `translate` (`Emit/Builtin.lean`). The value of a placeholder plays no part in normalisation where `insn_counter` puts it (`normAlu_count`), so emission with the replacement is emission of blocks in which the number stands from the start; every instruction that is counted gives exactly one machine instruction or is `spared` (`trInsn_length`). Without builtin constants the replacement does nothing (`emitB_iff`); nothing of what the passes hand on and nothing that code generation makes of it has one (`Sturdy`, `Firm`), so the theorems about runs hold with the replacement (`C77_run_partial`). Critical counts: induction along the chain of predecessors | Not exact: an addition of zero is counted but nothing is emitted (`C77_violated_exact`). A placeholder of 64 bits is loaded before it is replaced (`C77_violated_wide`). On a cycle of blocks with one predecessor each and no counter `bb_insn_critical_cnt` does not end (`C77_violated_critical`; no pass uses it). |
| C78 | A heap of allocated addresses with `malloc`/`free` and arrays with their memory (`Heap/Model.lean`); the memory that a function owns as a list (`Spec/Heap`), invariant `Sound`: what is allocated is a permutation of what is owned and of the rest. Every call of the interface keeps it, by steps in which the memory of one array or structure is set apart from all other (`Good`). | Order of instructions in a block and contents that play no part for memory are left out; an edit of an instruction that is not there is excluded (`crit`; C21-C23). Everything is freed except: the array of operands of an erased phi (`C78_violated_phi`), blocks that are not reachable (`C78_violated_unreachable`), and the `struct ir_function` itself, which nobody frees (`C78_violated_function`). Not modelled: data of code generation (`erase_insn_cg` also loses `user_data`), the old `env->insns` that `synthesize` overwrites without freeing, functions given up after an error. |
| C79 | The functions of `Opts` with the memory of parameters beside the configurations (`Heap/Opts.lean`); forgetting the memory gives the functions of C43 (`C79_same`). Induction over the listed options: parameters belong to passes named before, what is overwritten is lost. | A pass that is given a parameter twice loses the first one (`C79_violated_twice`), hence partial. Options that do not fit the buffers are excluded (`ub`, C43). |
| C80 | `Spec/Formed`: the conditions of `Spec/Cfg` on legal programs, said about slots and `decode` only. `Compile/Legal.lean`: each operation is translated to slots that decode and do not jump (or jump with the offset that relocation fills in); positions of blocks are sums of lengths, so a jump offset leads to the first slot of a block (`Parts`). Whole runs (`Pipe/LegalProps`), with or without `div_by_zero`: code generation keeps what is no phi in its block and keeps computed addresses computed (`Compile/Handed.lean`, with the invariants of C76), and the block that is laid out last cannot fall through. Conditions on the bytecode (`C80_typed_partial`): each register at each slot has a kind, frame pointer, computed or any (`Typed`, `Spec/Kinds`). Lifting carries kinds of registers to kinds of values (`Pipe/Kinds`, `lifted_held`), removal of trivial phis replaces a value only by one that reached it through phis (`Via`, `Traced` in `Phi/Lemmas`), and dead-code removal keeps instructions. With `div_by_zero` (`C80_typed_guarded_partial`, `Pipe/GuardedKinds`): all that is added compares an operand of a division with zero or returns (`Checked`). `C80_apart_partial` has all conditions on the bytecode (`Apart`, C70). | A load whose address is a constant becomes an immediate load with the opcode of the access size: for one byte this is no instruction (`C80_violated`), for eight bytes the program returns the address (`C60_violated_load`). Hence the condition on addresses; it is on the bytecode in the typed versions (the program of `C80_violated` has no kinds: `exByte_untyped`). Partial because programs without kinds are excluded and, with `div_by_zero`, merges behind divisions. `C80_any_partial` holds for any program, with conditions on the blocks handed to emission. |
| C81 | `SlotReach` of `Spec/Cfg` follows the decoded instructions of the output. Emission (`Compile/DeadCode`, `Compile/DeadProps`): every operation is translated to slots that are walked through one after another, jumps lead to the first slot of their block, so all slots of blocks that can be reached (`BlockReach`, over jumps and falling through) can be reached. Whole runs (`Pipe/DeadProps`), with or without `div_by_zero`: all blocks of the optimised function are connected to the entry, the layout puts a block behind the one that falls into it, code generation adds no jumps or returns and spills one of two constants that are compared (`Sturdy.test`). `C81_typed_partial` has its conditions on the bytecode, as in C80. With `div_by_zero`: `C81_typed_guarded_partial`. `C81_apart_partial` has all conditions on the bytecode (`Apart`, C70). | Emission alone leaves dead code behind a comparison of two constants (`C81_emitted_violated`); in whole runs this does not happen. Programs whose registers have no kinds are excluded, hence partial. |

## 4. How the layers fit together

1. bytecode -> blocks (`GenBB`: C15, C16, C49) -> SSA (`Lift`: C17-C20, C50). Semantics: `Spec/Bpf`
   on the one side, `Spec/Ir` on the other.
2. passes: SSA -> SSA, each with "same behaviour" (`Spec/Preserve`) or a stated difference.
3. code generation works on the places of values (`Spec/Loc`, generic in the map from values to
   places): SSA -> virtual registers with calls on machine registers (C41) -> no constants without an encoding (C53) -> stack slots (C40) [all of these composed in C54] -> machine registers (C52, on top of C34, C35, C51) -> no phis (C39).
4. values in places of their own (`Spec/Loc`) -> slots in memory (C55) -> allocated instructions (`Spec/Flat`, `Spec/Blocks`) -> machine code (C10-C14) -> array (C06-C09) [composed in C56].
5. The model of the whole of code generation is `Compile/Model` (`compile`); C57 composes 3 and 4.
6. The whole run without options is `Pipe/Model` (`autorun`); C58 is about 1, C59 about 1 and 2, C60 composes everything: bytecode in, bytecode out.

## 5. Conventions

`Verif/<Area>/Model.lean` holds definitions (with citations),
`Verif/<Area>/Lemmas.lean` helper lemmas, `Verif/<Area>/Props.lean` the property
theorems with their non-vacuity examples. Property theorems are named after the
property (`C07_...`). Theorems ending in `_partial` prove part of a property; the
companion `..._violated` theorem shows by a concrete witness why the
full statement is false of the code.
