import Verif.Model.MemBase
/-!
# `usize` arithmetic of a release build

`usize` values of a target with `ws`-byte words are `Nat`s below `2 ^ (8 * ws)`; the operations below
are those of `BitVec (8 * ws)` (wrap-around: release builds have overflow checks off).
-/

namespace Origin

/-- Number of `usize` values, `2 ^ (8 * ws)`.  (`usize`, e.g. src/thread/linux_raw.rs:1105.) -/
def umax (ws : Nat) : Nat := 2 ^ (8 * ws)

/-- `a + b` on `usize` in a release build; also `wrapping_add`, pointer `add`, `wrapping_byte_add`.  src/thread/linux_raw.rs:497, 501, 1106;
src/relocate.rs:182. -/
def uadd (ws a b : Nat) : Nat := (BitVec.ofNat (8 * ws) a + BitVec.ofNat (8 * ws) b).toNat

/-- `a * b` on `usize` in a release build.  src/thread/linux_raw.rs:261, src/thread/libc.rs:155. -/
def umul (ws a b : Nat) : Nat := (BitVec.ofNat (8 * ws) a * BitVec.ofNat (8 * ws) b).toNat

/-- `round_up`: src/thread/linux_raw.rs:1105-1107
`(addr + (boundary - 1)) & boundary.wrapping_neg()`. -/
def roundUp (ws addr boundary : Nat) : Nat :=
  uand ws (uadd ws addr (uwsub ws boundary 1)) (uneg ws boundary)

/-- `x` rounded up to a multiple of `b`, in unbounded arithmetic.  Used for what the compiler
(struct layout) and the kernel (page rounding) do, never for the crate's own arithmetic.  (`#[repr(C)]`, src/thread/linux_raw.rs:134; page rounding by
the system calls at 510-524.) -/
def natRoundUp (x b : Nat) : Nat := (x + (b - 1)) / b * b

end Origin
