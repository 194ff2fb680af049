import Verif.Spec.Layout
/-!
# Thread-local variables: how compiled code finds them

Vocabulary of C76.  Nothing here refers to how origin lays out a thread's memory, except `RouteOk`, the exact
condition under which each of the two ways leads to the block (it says so there).
-/

namespace Origin.Spec
open Origin

/-- The two ways compiled code finds a thread-local variable: at a constant distance from the thread pointer
(the local-exec and initial-exec models), or by asking for an address, as `__tls_get_addr` does
(the dynamic models) — with origin, `current_tls_addr`. -/
inductive Route
  | compiled
  | dynamic
deriving DecidableEq, Repr

/-- The offset the linker stores for a `__tls_get_addr` call that is to find byte `off` of the executable's TLS
block: `off` less the target's bias, modulo the word size. -/
def dtvOffset (c : Cfg) (off : Nat) : Nat := (off + umax c.ws - abiDtvOffset c.arch) % umax c.ws

/-- Where byte `off` of the executable's thread-local variables is, on the thread with the thread pointer `tp`. -/
def varAddr (c : Cfg) (r : Route) (tp off : Nat) : Option Nat :=
  match r with
  | .compiled => some (abiTlsStart c.arch tp c.tls.memSize c.tls.align + off)
  | .dynamic => currentTlsAddr c tp 1 (dtvOffset c off)

/-- When the ways lead to the block (C14 and C13, in terms of the configuration alone).
* At a constant distance from the thread pointer: always on x86 and x86-64; on aarch64 and riscv64 when the
  place the thread pointer has in the record is a multiple of the alignment of the TLS segment; never on arm.
* `current_tls_addr`: when the alignment divides the size of the record (targets with the block above the
  record) or of the TLS segment (the others). -/
def RouteOk (c : Cfg) (r : Route) : Prop :=
  match r with
  | .compiled =>
    match c.arch with
    | .x86_64 | .x86 => True
    | .aarch64 | .riscv64 => c.tls.align ∣ metaOff c.arch c.tl .abi + abiOff c.arch .pointee
    | .arm => False
  | .dynamic =>
    if c.arch.variantI then c.tls.align ∣ metaSize c.arch c.tl else c.tls.align ∣ c.tls.memSize

end Origin.Spec
