/-!
# The initial stack: `compute_args` and `compute_auxp`

Models src/program/linux_raw.rs:178-197 and src/relocate.rs:359-369.  Memory is read a machine word at a
time: `mem a` is the `usize` stored at byte address `a`; `w` is the word size in bits and `ws` in bytes.
Pointer arithmetic is on `Nat` (the code's `add`s are in bounds of the initial stack).
-/

namespace Origin.Boot

/-- What constructors receive, and, with `argc` widened, `origin_main`.  src/program/linux_raw.rs:122, 139, 155, 183. -/
structure Args where
  argc : BitVec 32
  argv : Nat
  envp : Nat
deriving DecidableEq, Repr

/-- `compute_args`: src/program/linux_raw.rs:183-197 (without its debug assertions).
`kernel_argc as c_int` truncates; `argc as c_uint as usize` zero-extends. -/
def computeArgs {w : Nat} (ws : Nat) (mem : Nat → BitVec w) (sp : Nat) : Args :=
  let kernelArgc := mem sp
  let argc : BitVec 32 := kernelArgc.setWidth 32
  let argv := sp + 1 * ws
  let envp := argv + (argc.toNat + 1) * ws
  { argc, argv, envp }

/-- The debug assertions of `compute_args`: src/program/linux_raw.rs:192-194 (`argc as _` sign-extends to
`usize`). -/
def argsAssert {w : Nat} (ws : Nat) (mem : Nat → BitVec w) (sp : Nat) : Bool :=
  let a := computeArgs ws mem sp
  decide (0 ≤ a.argc.toInt) && decide (mem sp = a.argc.signExtend w) && decide (mem (a.argv + a.argc.toNat * ws) = 0#w)

/-- `argc as usize` in the call of `origin_main`: src/program/linux_raw.rs:155 (sign-extends). -/
def mainArgc (w : Nat) (a : Args) : BitVec w := a.argc.signExtend w

/-- The loop of `compute_auxp`: src/relocate.rs:365-368.  `fuel` bounds the number of iterations followed;
`none` means the bound was hit. -/
def auxpLoop {w : Nat} (ws : Nat) (mem : Nat → BitVec w) : Nat → Nat → Option Nat
  | 0, _ => none
  | fuel + 1, p => if mem p = 0#w then some (p + 1 * ws) else auxpLoop ws mem fuel (p + 1 * ws)

/-- `compute_auxp`: src/relocate.rs:360-369. -/
def computeAuxp {w : Nat} (ws : Nat) (mem : Nat → BitVec w) (fuel envp : Nat) : Option Nat := auxpLoop ws mem fuel envp

end Origin.Boot
