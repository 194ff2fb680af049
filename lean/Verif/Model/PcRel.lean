import Verif.Model.Layout
/-!
# `dynamic_table_addr` and `ehdr_addr`: addresses before relocation

src/arch/x86_64.rs:67-92, x86.rs:74-122, aarch64.rs:67-94, arm.rs:67-107, riscv64.rs:65-89.  Both functions of an architecture have the same
instructions, with the symbol `_DYNAMIC` or `__ehdr_start`.

Everything is an `Int`, reduced to a word where the machine does.  `P`: link-time address of the (first) instruction, `S`: link-time address of
the symbol, `bias`: the difference between run-time and link-time addresses.  Each definition says which number the assembler and linker put
into the instructions (the relocation types that the assembler generates), then what the instructions compute where they run, at `P + bias`.
-/

namespace Origin.PcRel

/-- A `w`-bit field.  (Fields of the instructions at src/arch/x86_64.rs:73, aarch64.rs:73-74, riscv64.rs:71, as the linker fills them.) -/
def field (w : Nat) (v : Int) : Int := v % 2 ^ w

/-- A `w`-bit field read as a signed number.  (As the instructions at src/arch/x86_64.rs:73, aarch64.rs:73-74, riscv64.rs:71 read them.) -/
def signed (w : Nat) (v : Int) : Int := if v < 2 ^ (w - 1) then v else v - 2 ^ w

/-- x86-64: `lea {}, [rip + SYM]`, seven bytes: src/arch/x86_64.rs:73, 87.  `R_X86_64_PC32` with addend -4 at `P + 3`. -/
def addrX86_64 (P S bias : Int) : Int :=
  let disp := field 32 (S - 4 - (P + 3))
  (P + bias + 7 + signed 32 disp) % 2 ^ 64

/-- x86: `call 2f; 2: pop {0}; add {0}, offset _GLOBAL_OFFSET_TABLE_+1; lea {0}, [{0} + SYM@GOTOFF]`: src/arch/x86.rs:86-92, 106-117.  `P`: address of
the label; the `pop` has one byte; `len`: bytes before the immediate of the `add` (1 or 2, depending on the register).  `R_386_GOTPC` (`G + A - place`)
with the assembler's addend `1 + len` (a reference to `_GLOBAL_OFFSET_TABLE_` counts from the start of the instruction), then `R_386_GOTOFF` (`S - G`). -/
def addrX86 (len G P S bias : Int) : Int :=
  let place := P + 1 + len
  let imm := field 32 (G + (1 + len) - place)
  let r := (P + bias) % 2 ^ 32
  let r := (r + imm) % 2 ^ 32
  let off := field 32 (S - G)
  (r + off) % 2 ^ 32

/-- aarch64: `adrp {0}, SYM; add {0}, {0}, :lo12:SYM`: src/arch/aarch64.rs:73-74, 88-89.  `R_AARCH64_ADR_PREL_PG_HI21` and
`R_AARCH64_ADD_ABS_LO12_NC`. -/
def addrAArch64 (P S bias : Int) : Int :=
  let imm21 := field 21 (S / 4096 - P / 4096)
  let lo12 := field 12 S
  let r := ((P + bias) / 4096 * 4096 + signed 21 imm21 * 4096) % 2 ^ 64
  (r + lo12) % 2 ^ 64

/-- arm: `ldr {0}, 1f; 0: add {0}, pc, {0}; ...; 1: .word SYM-(0b+8)`: src/arch/arm.rs:73-80, 94-101.  `P`: address of label `0`; the
word is read from where it was put, and reading `pc` gives the instruction's address plus 8 (ARM state). -/
def addrArm (P S bias : Int) : Int :=
  let word := field 32 (S - (P + 8))
  (word + (P + bias + 8)) % 2 ^ 32

/-- riscv64: `lla {}, SYM` is `auipc {}, %pcrel_hi(SYM)` and `addi {}, {}, %pcrel_lo(..)`: src/arch/riscv64.rs:71, 85.
`R_RISCV_PCREL_HI20` and `R_RISCV_PCREL_LO12_I`. -/
def addrRiscv64 (P S bias : Int) : Int :=
  let hi20 := field 20 ((S - P + 0x800) / 4096)
  let lo12 := field 12 (S - P)
  let r := (P + bias + signed 20 hi20 * 4096) % 2 ^ 64
  (r + signed 12 lo12) % 2 ^ 64

/-- The result of `ehdr_addr` / `dynamic_table_addr`.  src/arch/x86_64.rs:67-92, x86.rs:74-122, aarch64.rs:67-94, arm.rs:67-107, riscv64.rs:65-89. -/
def symAddr (a : Arch) (len G P S bias : Int) : Int :=
  match a with
  | .x86_64 => addrX86_64 P S bias
  | .x86 => addrX86 len G P S bias
  | .aarch64 => addrAArch64 P S bias
  | .arm => addrArm P S bias
  | .riscv64 => addrRiscv64 P S bias

end Origin.PcRel
