import Verif.Model.MemFast
/-!
# The inline assembly of `src/mem/x86_64.rs`, instruction by instruction

`Verif.Model.MemX86` says what the copy and fill blocks do to memory with the direction flag written in.
Here the blocks are the instruction sequences of the source, over a machine that has the registers, the direction
flag and the six status flags, so that "the block leaves the direction flag clear" and "the block keeps to the
registers and options it declares" can be stated.  What the compiler does around a block (loading operands, moving
values, computing flags) is arbitrary, except that it changes neither the direction flag nor the modelled memory.

Simplifications: a 64-bit register is a `Nat`; the six status flags are computed for `add`/`sub`/`test` only, the
only instructions used here that set them.
-/

namespace Origin.X86
open Origin

/-- A general-purpose register, by its number in the x86-64 encoding (operands at src/mem/x86_64.rs:33-37, 46-66, 73-93). -/
abbrev GReg := Nat
/-- `rax` / `al`: src/mem/x86_64.rs:104, 119, 126, 133. -/
def rax : GReg := 0
/-- `rcx` / `ecx`: src/mem/x86_64.rs:34, 48, 55, 62, 88. -/
def rcx : GReg := 1
/-- `rsp`, which no operand may name (src/mem/x86_64.rs:37 `nostack`). -/
def rsp : GReg := 4
/-- `rsi`: src/mem/x86_64.rs:36, 50, 57, 64, 90. -/
def rsi : GReg := 6
/-- `rdi`: src/mem/x86_64.rs:35, 49, 56, 63, 89. -/
def rdi : GReg := 7

/-- The status flags (what `preserves_flags` is about, with the direction flag: src/mem/x86_64.rs:37, 93). -/
structure Flags where
  cf : Bool
  pf : Bool
  af : Bool
  zf : Bool
  sf : Bool
  of : Bool
deriving DecidableEq, Repr

/-- The processor state a block can see.  Not in /repo: the machine on which src/mem/x86_64.rs:28-136 runs. -/
structure Machine where
  reg : GReg → Nat
  df : Bool
  fl : Flags
  st : St

/-- The instructions of src/mem/x86_64.rs:33, 47, 54, 61, 74-85, 101, 116, 123, 130 (AT&T operand order: source first). -/
inductive Op where
  | std
  | cld
  /-- `rep movsb` / `repe movsb (%rsi), (%rdi)` (the same encoding) -/
  | repMovsb
  | repMovsq
  /-- `rep stosb` / `repe stosb %al, (%rdi)` -/
  | repStosb
  | repStosq
  /-- `sub $k, r` -/
  | sub (k : Nat) (r : GReg)
  /-- `add $k, r` -/
  | add (k : Nat) (r : GReg)
  /-- `mov s, d`, 64 bits -/
  | mov (s d : GReg)
  /-- `mov s, d`, 32 bits: clears the upper half of `d` -/
  | mov32 (s d : GReg)
  /-- `test a, b`, 32 bits -/
  | test32 (a b : GReg)
deriving DecidableEq, Repr

/-- Assign a register.  Not in /repo: part of the machine of src/mem/x86_64.rs:28-136. -/
def Machine.set (c : Machine) (r : GReg) (v : Nat) : Machine :=
  { c with reg := fun x => if x = r then v else c.reg x }

/-- Parity flag: the low byte of the result has an even number of ones.  Not in /repo: part of `sub`/`add`/`test`
(src/mem/x86_64.rs:76-82). -/
def parity (v : Nat) : Bool :=
  (v % 2 + v / 2 % 2 + v / 4 % 2 + v / 8 % 2 + v / 16 % 2 + v / 32 % 2 + v / 64 % 2 + v / 128 % 2) % 2 = 0

/-- Flags of the 64-bit `a - k` (`a`, `k` below `2^64`): src/mem/x86_64.rs:76-77. -/
def subFlags (a k : Nat) : Flags :=
  let v := (a + (2 ^ 64 - k)) % 2 ^ 64
  { cf := a < k, pf := parity v, af := a % 16 < k % 16, zf := v = 0, sf := 2 ^ 63 ≤ v
    of := (decide (2 ^ 63 ≤ a) != decide (2 ^ 63 ≤ k)) && (decide (2 ^ 63 ≤ v) != decide (2 ^ 63 ≤ a)) }

/-- Flags of the 64-bit `a + k`: src/mem/x86_64.rs:81-82. -/
def addFlags (a k : Nat) : Flags :=
  let v := (a + k) % 2 ^ 64
  { cf := 2 ^ 64 ≤ a + k, pf := parity v, af := 16 ≤ a % 16 + k % 16, zf := v = 0, sf := 2 ^ 63 ≤ v
    of := (decide (2 ^ 63 ≤ a) == decide (2 ^ 63 ≤ k)) && (decide (2 ^ 63 ≤ v) != decide (2 ^ 63 ≤ a)) }

/-- Flags of `test` on the low 32 bits (`af`, which it leaves undefined, is modelled as cleared): src/mem/x86_64.rs:80. -/
def testFlags (a b : Nat) : Flags :=
  let v := a % 2 ^ 32 &&& b % 2 ^ 32
  { cf := false, pf := parity v, af := false, zf := v = 0, sf := 2 ^ 31 ≤ v, of := false }

/-- `rep stos` in the direction the flag gives.  src/mem/x86_64.rs:101, 116, 123, 130. -/
def repStosDf (df : Bool) (sz : Nat) (w : BitVec (8 * sz)) : (n : Nat) → St → (di : Nat) → St × Nat
  | 0, s, di => (s, di)
  | n + 1, s, di => repStosDf df sz w n (s.stW .little sz di w) (idx df di sz)

/-- One instruction.  `rep` counts in the whole of `rcx` and leaves it zero; `stosb` stores `al`, `stosq` `rax`; string
instructions and `mov` leave the status flags alone.  src/mem/x86_64.rs:33, 47, 54, 61, 74-85, 101, 116, 123, 130. -/
def Op.exec (c : Machine) : Op → Machine
  | .std => { c with df := true }
  | .cld => { c with df := false }
  | .repMovsb =>
    let (s, di, si) := repMovs c.df 1 (c.reg rcx) c.st (c.reg rdi) (c.reg rsi)
    { (((c.set rcx 0).set rdi di).set rsi si) with st := s }
  | .repMovsq =>
    let (s, di, si) := repMovs c.df 8 (c.reg rcx) c.st (c.reg rdi) (c.reg rsi)
    { (((c.set rcx 0).set rdi di).set rsi si) with st := s }
  | .repStosb =>
    let (s, di) := repStosDf c.df 1 (BitVec.ofNat 8 (c.reg rax)) (c.reg rcx) c.st (c.reg rdi)
    { ((c.set rcx 0).set rdi di) with st := s }
  | .repStosq =>
    let (s, di) := repStosDf c.df 8 (BitVec.ofNat 64 (c.reg rax)) (c.reg rcx) c.st (c.reg rdi)
    { ((c.set rcx 0).set rdi di) with st := s }
  | .sub k r => { c.set r (idx true (c.reg r) k) with fl := subFlags (c.reg r) k }
  | .add k r => { c.set r (idx false (c.reg r) k) with fl := addFlags (c.reg r) k }
  | .mov s d => c.set d (c.reg s)
  | .mov32 s d => c.set d (c.reg s % 2 ^ 32)
  | .test32 a b => { c with fl := testFlags (c.reg a) (c.reg b) }

/-- A sequence of instructions.  src/mem/x86_64.rs:74-85. -/
def execAll (code : List Op) (c : Machine) : Machine := code.foldl Op.exec c

/-- An operand's value when the block is entered: a whole register, or its low byte (`al`).  src/mem/x86_64.rs:34-36, 86-90, 104. -/
inductive Operand where
  | whole (r : GReg) (v : Nat)
  | lowByte (r : GReg) (v : Byte)

/-- The register holds the operand.  src/mem/x86_64.rs:34-36, 86-90, 104. -/
def Operand.holds (c : Machine) : Operand → Prop
  | .whole r v => c.reg r = v
  | .lowByte r v => BitVec.ofNat 8 (c.reg r) = v

/-- An `asm!` block: instructions, operands on entry, the registers it declares as outputs, and whether it declares
`preserves_flags`.  src/mem/x86_64.rs:32-38, 46-66, 73-93, 100-106, 115-135. -/
structure Block where
  code : List Op
  ins : List Operand
  outs : List GReg
  preservesFlags : Bool

/-- The block of src/mem/x86_64.rs:32-38 (`ermsb`) and those of 46-52 and 60-66: `rep movsb`. -/
def movsbBlock (count dest src : Nat) : Block :=
  { code := [.repMovsb], ins := [.whole rcx count, .whole rdi dest, .whole rsi src]
    outs := [rcx, rdi, rsi], preservesFlags := true }

/-- src/mem/x86_64.rs:53-59: `rep movsq`. -/
def movsqBlock (count dest src : Nat) : Block :=
  { code := [.repMovsq], ins := [.whole rcx count, .whole rdi dest, .whole rsi src]
    outs := [rcx, rdi, rsi], preservesFlags := true }

/-- src/mem/x86_64.rs:73-93, the block of `copy_backward`; `ra` and `rb` are the registers the compiler chose for
`pre_byte_count` and `qword_count`. -/
def backwardBlock (ra rb : GReg) (pre qwords bytes dest src : Nat) : Block :=
  { code := [.std, .repMovsb, .sub 7 rsi, .sub 7 rdi, .mov rb rcx, .repMovsq, .test32 ra ra,
      .add 7 rsi, .add 7 rdi, .mov32 ra rcx, .repMovsb, .cld]
    ins := [.whole ra pre, .whole rb qwords, .whole rcx bytes, .whole rdi dest, .whole rsi src]
    outs := [rcx, rdi, rsi], preservesFlags := true }

/-- src/mem/x86_64.rs:100-106 (`ermsb`): `rep stosb` with the byte in `al`, declared clobbered. -/
def stosbErmsbBlock (count dest : Nat) (c : Byte) : Block :=
  { code := [.repStosb], ins := [.whole rcx count, .whole rdi dest, .lowByte rax c]
    outs := [rcx, rdi, rax], preservesFlags := true }

/-- src/mem/x86_64.rs:115-121 and 129-135: `rep stosb` with the pattern in `rax`. -/
def stosbBlock (count dest : Nat) (c : BitVec 64) : Block :=
  { code := [.repStosb], ins := [.whole rcx count, .whole rdi dest, .whole rax c.toNat]
    outs := [rcx, rdi], preservesFlags := true }

/-- src/mem/x86_64.rs:122-128: `rep stosq`. -/
def stosqBlock (count dest : Nat) (c : BitVec 64) : Block :=
  { code := [.repStosq], ins := [.whole rcx count, .whole rdi dest, .whole rax c.toNat]
    outs := [rcx, rdi], preservesFlags := true }

/-- The compiler's code up to the next block: it may leave anything in the registers and the status flags; it changes
neither the direction flag nor the modelled memory.  Not in /repo: the compiler's part in src/mem/x86_64.rs:40-136. -/
def Glue (c e : Machine) : Prop := e.df = c.df ∧ e.st = c.st

/-- The compiler enters the block with its operands in place, and the block runs.  src/mem/x86_64.rs:32, 46, 53, 60, 73, 100, 115, 122, 129 (`asm!`). -/
def Block.Runs (b : Block) (c c' : Machine) : Prop :=
  ∃ e, Glue c e ∧ (∀ o, o ∈ b.ins → o.holds e) ∧ c' = execAll b.code e

/-- src/mem/x86_64.rs:28-38 (`ermsb`) and 40-67 `copy_forward`. -/
def CopyForward (ermsb : Bool) (dest src count : Nat) (c c' : Machine) : Prop :=
  if ermsb then (movsbBlock count dest src).Runs c c'
  else
    let (pre, qwords, bytes) := repParam dest count
    ∃ c1 c2, (movsbBlock pre dest src).Runs c c1 ∧
      (movsqBlock qwords (c1.reg rdi) (c1.reg rsi)).Runs c1 c2 ∧
      (movsbBlock bytes (c2.reg rdi) (c2.reg rsi)).Runs c2 c'

/-- A register the compiler may choose for an `in(reg)` operand of `copy_backward`: not one that another operand names, and not
the stack pointer.  src/mem/x86_64.rs:86-90. -/
def Choosable (r : GReg) : Prop := r ≠ rcx ∧ r ≠ rdi ∧ r ≠ rsi ∧ r ≠ rsp

/-- src/mem/x86_64.rs:69-94 `copy_backward`. -/
def CopyBackward (dest src count : Nat) (c c' : Machine) : Prop :=
  let (pre, qwords, bytes) := repParam dest count
  ∃ ra rb, Choosable ra ∧ Choosable rb ∧
    (backwardBlock ra rb pre qwords bytes (dest + (count - 1)) (src + (count - 1))).Runs c c'

/-- src/mem/x86_64.rs:96-106 (`ermsb`) and 108-136 `set_bytes`. -/
def SetBytes (ermsb : Bool) (dest : Nat) (v : Byte) (count : Nat) (c c' : Machine) : Prop :=
  if ermsb then (stosbErmsbBlock count dest v).Runs c c'
  else
    let c64 : BitVec 64 := v.setWidth 64 * 0x0101010101010101#64
    let (pre, qwords, bytes) := repParam dest count
    ∃ c1 c2, (stosbBlock pre dest c64).Runs c c1 ∧ (stosqBlock qwords (c1.reg rdi) c64).Runs c1 c2 ∧
      (stosbBlock bytes (c2.reg rdi) c64).Runs c2 c'

/-- A call of an exported function that writes memory.  src/mem/fast.rs:15, 21, 34. -/
inductive MemCall where
  | memcpy (dest src n : Nat)
  | memmove (dest src n : Nat)
  | memset (p : Nat) (c : BitVec 32) (n : Nat)

/-- One call, in the x86-64 build.  src/mem/fast.rs:15-37. -/
def MemCall.Runs (ermsb : Bool) (c c' : Machine) : MemCall → Prop
  | .memcpy dest src n => CopyForward ermsb dest src n c c'
  | .memmove dest src n =>
    if uwsub 8 dest src ≥ n then CopyForward ermsb dest src n c c' else CopyBackward dest src n c c'
  | .memset p x n => SetBytes ermsb p (x.setWidth 8) n c c'

/-- A sequence of calls, with the callers' code in between.  Not in /repo: users of src/mem/fast.rs:15-37. -/
def CallsRun (ermsb : Bool) : List MemCall → Machine → Machine → Prop
  | [], c, c' => Glue c c'
  | m :: ms, c, c' => ∃ c1, m.Runs ermsb c c1 ∧ CallsRun ermsb ms c1 c'

end Origin.X86
