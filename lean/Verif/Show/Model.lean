import Verif.Edit.Model
import Verif.Tool.Disasm
/-!
# Model of the listing of functions (core/ir_helper.c:35-640)

Simplifications: the messages are put together (they go to the log one by one, `Drive.printToLog`); whether they are shown depends on `verbose`, but the functions run in any case.
The values of an instruction that are printed but not there (`value_num` is too small) are those of earlier uses of the memory: `ub`.
What the model of functions leaves out but the listing shows is in `Extra`.
-/
namespace Verif.Show
open Verif Verif.IR Verif.Edit
open Verif.Opts (Str)
open Verif.Tool (str dec hex int)

/-! ## Numbers for blocks and instructions -/

/-- The fields `_insn_id` and `_id` (`none` is -1) and the counters of `tag_ir`; a block is marked (`_visited`) when it gets its number. -/
structure Tags where
  id : Nat → Option Nat
  bid : Nat → Option Nat
  cnt : Nat
  bcnt : Nat

/-- `bpf_ir_clean_id`, core/ir_helper.c:46-66, and the counters. -/
def clean : Tags := ⟨fun _ => none, fun _ => none, 0, 0⟩

/-- The loop over the instructions of a block, core/ir_helper.c:605-612 -/
def tagInsns (f : Fn) : List Nat → Tags → Tags
  | [], t => t
  | x :: xs, t => tagInsns f xs (if isVoid (f.insn x).op then t else { t with id := upd t.id x (some t.cnt), cnt := t.cnt + 1 })

/-- `assign_id`, core/ir_helper.c:597-619; `n` bounds the depth of the recursion, `none` if it is too small. -/
def assign (f : Fn) : Nat → Nat → Tags → Option Tags
  | 0, _, _ => none
  | n + 1, b, t =>
    if (t.bid b).isSome then some t
    else (f.succs b).foldlM (fun t c => assign f n c t) (tagInsns f (f.body b) { t with bid := upd t.bid b (some t.bcnt), bcnt := t.bcnt + 1 })

/-- `tag_ir`, core/ir_helper.c:621-629 -/
def tag (f : Fn) : Option Tags := assign f (f.allBbs.length + 1) f.entry clean

/-! ## Operands -/

/-- `enum ir_raw_pos_type`, core/include/linux/bpf_ir.h -/
inductive PosKind where
  | imm | dst | src | insn
  deriving Repr, DecidableEq, Inhabited

/-- `struct ir_raw_pos`: where in the bytecode something comes from, `none` if not valid. -/
abbrev Pos := Option (Nat × PosKind)

/-- What is not in the model of functions: flags of blocks, positions of instructions, of operands (by their number) and of addresses, and what `%p` shows. -/
structure Extra where
  flag : Nat → BitVec 32
  pos : Nat → Pos
  vpos : Nat → Nat → Pos
  apos : Nat → Pos
  ptr : Nat → Str
  bptr : Nat → Str

/-- `print_ir_rawpos`, core/ir_helper.c:135-158 -/
def posText : Pos → Str
  | none => []
  | some (n, k) => str "[" ++ (dec n ++ (str "." ++ ((match k with | .imm => str "imm" | .dst => str "dst" | .src => str "src" | .insn => str "insn") ++ str "]")))

/-- `print_insn_ptr_base`, core/ir_helper.c:68-83 -/
def nameOf (f : Fn) (t : Tags) (e : Extra) (x : Nat) : Str :=
  if (f.insn x).op = .reg then str "R" ++ dec (f.insn x).aux.toNat
  else if (f.insn x).op = .funarg then str "arg" ++ dec (f.insn x).aux.toNat
  else match t.id x with
    | none => e.ptr x
    | some k => str "%" ++ dec k

/-- `print_bb_ptr`, core/ir_helper.c:96-103 -/
def bbName (t : Tags) (e : Extra) (b : Nat) : Str :=
  match t.bid b with
  | none => str "b" ++ e.bptr b
  | some k => str "b" ++ dec k

/-- `print_const`, core/ir_helper.c:105-133 -/
def constText (c : BitVec 64) (ct : AluTy) (b : Builtin) : Str :=
  match b, ct with
  | .none, .w64 => str "0x" ++ (hex c.toNat ++ str "(64)")
  | .none, .w32 => str "0x" ++ (hex (c.toNat % 2 ^ 32) ++ str "(32)")
  | .none, .unknown => str "(unknown)"
  | .bbInsnCnt, _ => str "__BB_INSN_CNT__"
  | .bbInsnCriticalCnt, _ => str "__BB_INSN_CRITICAL_CNT__"

/-- `print_ir_value_full`, core/ir_helper.c:173-204, without the position; `nm` is the name of an instruction. -/
def valText (nm : Nat → Str) : Val → Str
  | .insn x => nm x
  | .const .plain c ct b => constText c ct b
  | .const .rawoff c ct b => str "hole(" ++ (constText c ct b ++ str ")")
  | .const .rawoffRev c ct b => str "hole(-" ++ (constText c ct b ++ str ")")
  | .undef => str "undef"

/-- `print_ir_value_full`, core/ir_helper.c:173-204 -/
def tok (nm : Nat → Str) (v : Val) (p : Pos) : Str := valText nm v ++ posText p

/-- The mark of an offset that is relative to the stack, core/ir_helper.c:215-219 -/
def offMark : CKind → Str
  | .plain => []
  | .rawoff => str "(+off)"
  | .rawoffRev => str "(-off)"

/-- The offset of an address, core/ir_helper.c:213-220 -/
def offText (o : BitVec 16) (k : CKind) : Str := if o = 0 then [] else str "+" ++ (int o.toInt ++ offMark k)

/-- `print_vr_type`, core/ir_helper.c:228-246 -/
def vrText : VrTy → Out Str
  | .t8 => .ok (str "u8") | .t16 => .ok (str "u16") | .t32 => .ok (str "u32") | .t64 => .ok (str "u64")
  | .unknown => .crit

/-- `print_imm64ld_op`, core/ir_helper.c:286-314 -/
def immText : Nat → Out Str
  | 0 => .ok (str "imm64") | 1 => .ok (str "map_fd") | 2 => .ok (str "map_val_fd") | 3 => .ok (str "var_addr") | 4 => .ok (str "code_addr")
  | 5 => .ok (str "map_idx") | 6 => .ok (str "map_val_idx")
  | _ => .crit

/-! ## Instructions -/

/-- The names of binary operations, core/ir_helper.c:391-423 -/
def aluName : Op → Option Str
  | .add => some (str "add") | .sub => some (str "sub") | .mul => some (str "mul") | .div => some (str "div") | .or => some (str "or") | .and => some (str "and")
  | .lsh => some (str "lsh") | .arsh => some (str "arsh") | .rsh => some (str "rsh") | .mod => some (str "mod") | .xor => some (str "xor")
  | _ => none

/-- The names of conditional jumps, core/ir_helper.c:449-478 -/
def jmpName : Op → Option Str
  | .jeq => some (str "jeq") | .jgt => some (str "jgt") | .jge => some (str "jge") | .jlt => some (str "jlt") | .jle => some (str "jle") | .jne => some (str "jne")
  | .jsge => some (str "jsge") | .jsle => some (str "jsle") | .jsgt => some (str "jsgt") | .jslt => some (str "jslt")
  | _ => none

/-- The width, core/ir_helper.c:274-280 -/
def widText : AluTy → Str
  | .w64 => str "(64) " | .w32 => str "(32) " | .unknown => str "(?) "

/-- `print_alu`, core/ir_helper.c:268-285 -/
def aluText (nm : Nat → Str) (vp : Nat → Pos) (i : Insn) (name : Str) : Out Str :=
  match i.vals with
  | v0 :: v1 :: _ => .ok (name ++ (widText i.aluOp ++ (tok nm v0 (vp 0) ++ (str ", " ++ (tok nm v1 (vp 1) ++ str ", ")))))
  | _ => .ub

/-- Arguments, core/ir_helper.c:426-433: behind the first each has a comma in front. -/
def argsText (nm : Nat → Str) (vp : Nat → Pos) : Nat → List Val → Str
  | _, [] => []
  | k, v :: vs => (if k = 0 then [] else str ", ") ++ (tok nm v (vp k) ++ argsText nm vp (k + 1) vs)

/-- `print_phi_full`, core/ir_helper.c:251-264 -/
def phiText (nm bt : Nat → Str) (vp : Nat → Pos) : Nat → List (Nat × Val) → Str
  | _, [] => []
  | k, o :: os => str " <" ++ (bt o.1 ++ (str " -> " ++ (tok nm o.2 (vp k) ++ (str ">" ++ phiText nm bt vp (k + 1) os))))

/-- The first value, if there is one. -/
def first (i : Insn) (g : Val → Str) : Out Str :=
  match i.vals with
  | v :: _ => .ok (g v)
  | [] => .ub

/-- `print_ir_insn_full`, core/ir_helper.c:331-497, without the position: `nm` and `bt` are the names of instructions and blocks, `vp` the positions of the values, `ap` that of the address.
An argument in a block is an unknown instruction. -/
def insnText (nm bt : Nat → Str) (vp : Nat → Pos) (ap : Pos) (i : Insn) : Out Str :=
  match i.op with
  | .alloc => do .ok (str "alloc " ++ (← vrText i.vrType))
  | .allocarray => do .ok (str "allocarray <" ++ ((← vrText i.vrType) ++ (str " x " ++ (dec i.aux.toNat ++ str ">"))))
  | .store =>
    match i.vals with
    | v0 :: v1 :: _ => .ok (str "store " ++ (tok nm v0 (vp 0) ++ (str ", " ++ tok nm v1 (vp 1))))
    | _ => .ub
  | .load => first i fun v => str "load " ++ tok nm v (vp 0)
  | .loadraw => do .ok (str "loadraw " ++ ((← vrText i.vrType) ++ (str " " ++ (tok nm i.addr ap ++ offText i.addrOff i.addrKind))))
  | .loadimm => do .ok (str "loadimm(" ++ ((← immText i.immKind) ++ (str ") 0x" ++ hex i.imm64.toNat)))
  | .storeraw => do
    let t ← vrText i.vrType
    first i fun v => str "storeraw " ++ (t ++ (str " " ++ ((tok nm i.addr ap ++ offText i.addrOff i.addrKind) ++ (str " " ++ tok nm v (vp 0)))))
  | .getelemptr =>
    match i.vals with
    | v0 :: v1 :: _ => .ok (str "getelemptr " ++ (tok nm v1 (vp 1) ++ (str "+" ++ tok nm v0 (vp 0))))
    | _ => .ub
  | .neg => first i fun v => str "-" ++ tok nm v (vp 0)
  | .htobe => first i fun v => str "htobe " ++ tok nm v (vp 0)
  | .htole => first i fun v => str "htole " ++ tok nm v (vp 0)
  | .call => .ok (str "call __built_in_func_" ++ (int i.aux.toInt ++ (str "(" ++ (argsText nm vp 0 i.vals ++ str ")"))))
  | .ret => .ok (str "ret " ++ (match i.vals with | v :: _ => tok nm v (vp 0) | [] => []))
  | .throw => .ok (str "throw")
  | .ja => .ok (str "ja " ++ bt i.bb1)
  | .phi => .ok (str "phi" ++ phiText nm bt vp 0 i.phi)
  | .assign => first i fun v => tok nm v (vp 0)
  | .reg => .ok (str "(REG)")
  | .ecall => .ok (str "ecall efun#" ++ (int i.aux.toInt ++ (str "(" ++ (argsText nm vp 0 i.vals ++ str ")"))))
  | .funarg => .crit
  | o =>
    match aluName o with
    | some name => aluText nm vp i name
    | none =>
      match jmpName o with
      | some name => do .ok ((← aluText nm vp i name) ++ (bt i.bb1 ++ (str "/" ++ bt i.bb2)))
      | none => .crit

/-- The position of an instruction, core/ir_helper.c:493-496 -/
def remark : Pos → Str
  | none => []
  | p => str " // " ++ posText p

/-! ## Functions -/

/-- `%%%zu` of `_insn_id` -/
def idText (t : Tags) (x : Nat) : Str :=
  str "%" ++ dec (match t.id x with | some k => k | none => 2 ^ 64 - 1)

/-- The line of an instruction, core/ir_helper.c:530-543, without its end. -/
def insnLine (f : Fn) (t : Tags) (e : Extra) (x : Nat) : Out Str := do
  let s ← insnText (nameOf f t e) (bbName t e) (e.vpos x) (e.apos x) (f.insn x)
  .ok (str "  " ++ ((if isVoid (f.insn x).op then [] else idText t x ++ str " = ") ++ (s ++ remark (e.pos x))))

/-- The first line of a block, core/ir_helper.c:526, without its end. -/
def headLine (t : Tags) (e : Extra) (b : Nat) : Str :=
  str "b" ++ (dec (match t.bid b with | some k => k | none => 2 ^ 64 - 1) ++ (str " (flag: 0x" ++ (hex (e.flag b).toNat ++ str "):")))

/-- Lines of instructions. -/
def insnLines (f : Fn) (t : Tags) (e : Extra) : List Nat → Out (List Str)
  | [] => .ok []
  | x :: xs => do
    let s ← insnLine f t e x
    let r ← insnLines f t e xs
    .ok (s :: r)

/-- `print_ir_bb`, core/ir_helper.c:553-567, for the blocks `R` (`reachable_bbs`): the lines. -/
def blockLines (f : Fn) (t : Tags) (e : Extra) : List Nat → Out (List Str)
  | [] => .ok []
  | b :: bs => do
    let s ← insnLines f t e (f.body b)
    let r ← blockLines f t e bs
    .ok (headLine t e b :: (s ++ r))

/-- `print_ir_prog`, core/ir_helper.c:643-647 -/
def listing (f : Fn) (R : List Nat) (e : Extra) : Out Str :=
  match tag f with
  | none => .ub
  | some t => do
    let l ← blockLines f t e R
    .ok (l.flatMap fun s => s ++ str "\n")

/-! ## Errors -/

/-- The values that are printed. -/
def shown (i : Insn) : List Val :=
  match i.op with
  | .alloc | .allocarray | .loadimm | .throw | .ja | .reg => []
  | .phi => i.phi.map (·.2)
  | .loadraw => [i.addr]
  | .storeraw => i.addr :: i.vals.take 1
  | .load | .neg | .htobe | .htole | .ret | .assign => i.vals.take 1
  | .call | .ecall => i.vals
  | _ => i.vals.take 2

/-- `print_const` sets `env->err`, core/ir_helper.c:114-118 (a value of `builtin_const` that is not in the enumeration is not modelled). -/
def spoils : Val → Bool
  | .const _ _ .unknown .none => true
  | _ => false

/-- Does printing set `env->err`?  The passes and the run end with an error then, core/bpf_ir.c:1789-1790. -/
def sets (f : Fn) (R : List Nat) : Bool := R.any fun b => (f.body b).any fun x => (shown (f.insn x)).any spoils

end Verif.Show
