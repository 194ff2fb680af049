import Verif.Model.Layout
/-!
# Thread creation and start-up in a debug build

The functions of `Model/Layout.lean` that compute with `usize` or contain debug assertions, as a debug build runs them: `+` and `-` on integers panic
when they overflow (`overflow-checks` is on), and `debug_assert!` is checked.  Pointer `add`/`sub` are as in a release build; the checks that the core
library itself makes in debug builds (its `ub_checks`) are not modelled.
-/

namespace Origin

/-- `a + b` on `usize`; `none`: "attempt to add with overflow".  (As in src/thread/linux_raw.rs:407, 497, 501.) -/
def cadd (ws a b : Nat) : Option Nat := if a + b < umax ws then some (a + b) else none

/-- `a - b` on `usize`; `none`: "attempt to subtract with overflow".  (As in src/thread/linux_raw.rs:465, 522, 1106.) -/
def csub (a b : Nat) : Option Nat := if b ≤ a then some (a - b) else none

/-- `debug_assert!`.  (As in src/thread/linux_raw.rs:365, 397.) -/
def dassert (b : Prop) [Decidable b] : Option Unit := if b then some () else none

/-- `round_up`: src/thread/linux_raw.rs:1105-1107. -/
def roundUpD (ws addr boundary : Nat) : Option Nat :=
  (csub boundary 1).bind fun x => (cadd ws addr x).bind fun y => some (uand ws y (uneg ws boundary))

/-- `calculate_tls_size`: src/thread/linux_raw.rs:386-428, with the assertion at 397. -/
def calculateTlsSizeD (c : Cfg) (mapSize : Nat) : Option TlsSize :=
  let metadataAlign := max c.tls.align (metaAlign c.arch)
  (dassert (metadataAlign ≤ c.page)).bind fun _ =>
  (roundUpD c.ws mapSize metadataAlign).bind fun m0 =>
  if c.arch.variantI then
    (cadd c.ws m0 (metaSize c.arch c.tl)).bind fun m1 =>
    (roundUpD c.ws m1 c.tls.align).bind fun m2 =>
    (roundUpD c.ws c.tls.memSize c.tls.align).bind fun t =>
    (cadd c.ws m2 t).bind fun m3 =>
    some { mapSize := m3, tlsBottom := m2, header := m0 }
  else
    (roundUpD c.ws c.tls.memSize c.tls.align).bind fun t =>
    (cadd c.ws m0 t).bind fun m1 =>
    (cadd c.ws m1 (metaSize c.arch c.tl)).bind fun m2 =>
    some { mapSize := m2, tlsBottom := m0, header := m1 }

/-- First part of `create`: src/thread/linux_raw.rs:490-506. -/
def createLayoutD (c : Cfg) (stackSize guardSize : Nat) : Option CreateLayout :=
  (roundUpD c.ws guardSize c.page).bind fun g =>
  (cadd c.ws 0 g).bind fun stackBottom =>
  (roundUpD c.ws stackSize 16).bind fun r =>
  (cadd c.ws stackBottom r).bind fun stackTop =>
  (calculateTlsSizeD c stackTop).bind fun t =>
  some { mapSize := t.mapSize, stackBottom, stackTop, tlsBottom := t.tlsBottom, header := t.header }

/-- `initialize_tls`: src/thread/linux_raw.rs:430-472; the subtraction at 465 is checked. -/
def initializeTlsD (c : Cfg) (m : Mem) (junk : Nat → Byte)
    (tlsData metadata canary stackLeast stackSize guardSize mapSize : Nat) : Option (Mem × Nat × Nat) :=
  let newtls := pointeeAddr c metadata
  let m := writeStruct c.endian m metadata (metaSize c.arch c.tl) junk
    (metaVals c.arch c.tl canary newtls stackLeast stackSize guardSize mapSize)
  let m := Spec.moved m tlsData c.tls.addr c.tls.fileSize
  (csub c.tls.memSize c.tls.fileSize).bind fun n =>
  some (Spec.filled m (uadd c.ws tlsData c.tls.fileSize) n 0, newtls, uadd c.ws (threadAddr c metadata) c.tl.tid)

/-- A debug build's run: it panics, after these system calls, or returns.  (src/thread/linux_raw.rs:484-613.) -/
inductive DbgRun (α : Type) where
  | panic (calls : List Sys)
  | ok (out : α)

/-- Go on with the value of a checked computation, or panic.  (src/thread/linux_raw.rs:484-613.) -/
def DbgRun.orPanic {α β : Type} (calls : List Sys) (x : Option α) (f : α → DbgRun β) : DbgRun β :=
  match x with
  | none => .panic calls
  | some v => f v

/-- `create`: src/thread/linux_raw.rs:484-613. -/
def createD (c : Cfg) (m : Mem) (junk : Nat → Byte) (k : Answers) (tp fn : Nat) (args : List Nat)
    (stackSize guardSize : Nat) : DbgRun CreateOut :=
  .orPanic [] (createLayoutD c stackSize guardSize) fun l =>
  let call1 := Sys.mmap l.mapSize .inaccessible k.mmap
  match k.mmap with
  | .error e => .ok { res := .error e, calls := [call1], mem := m }
  | .ok map =>
    .orPanic [call1] (csub l.mapSize l.stackBottom) fun len =>
    let call2 := Sys.mprotect (uadd c.ws map l.stackBottom) len .readWrite k.mprotect
    match k.mprotect with
    | .error e => .ok { res := .error e, calls := [call1, call2], mem := m }
    | .ok _ =>
      let stack := uadd c.ws map l.stackTop
      let stackLeast := uadd c.ws map l.stackBottom
      let tlsData := uadd c.ws map l.tlsBottom
      let metadata := uadd c.ws map l.header
      let canary := ldN c.endian c.ws m
        (uadd c.ws (currentMetadata c tp) (metaOff c.arch c.tl .abi + abiOff c.arch .canary))
      .orPanic [call1, call2] (initializeTlsD c m junk tlsData metadata canary stackLeast stackSize guardSize l.mapSize) fun (m, newtls, tidPtr) =>
      let sp := childSp c stack args.length
      let m := stWords c.endian c.ws m sp args
      let call3 := Sys.clone createFlags sp tidPtr tidPtr newtls fn args.length k.clone
      let m := kernelClone c.endian m createFlags tidPtr tidPtr k.clone
      if 0 ≤ k.clone then
        .ok { res := .ok (threadAddr c metadata), calls := [call1, call2, call3], mem := m }
      else
        .ok { res := .error (-k.clone).toNat, calls := [call1, call2, call3], mem := m }

/-- The assertion of `set_thread_pointer` about the word at the thread pointer, on x86-64 and x86: src/arch/x86_64.rs:254, x86.rs:342 (the others are
about the thread-pointer register: C51). -/
def selfAssert (a : Arch) (b : Prop) [Decidable b] : Option Unit :=
  match a with
  | .x86_64 | .x86 => dassert b
  | .aarch64 | .arm | .riscv64 => some ()

/-- `initialize_main`: src/thread/linux_raw.rs:326-384, with the assertion at 365, and `set_thread_pointer`'s. -/
def initializeMainD (c : Cfg) (m : Mem) (junk : Nat → Byte) (i : MainIn) : DbgRun MainOut :=
  .orPanic [] (roundUpD c.ws i.execfnEnd c.page) fun stackBase =>
  .orPanic [] i.stackLimit fun stackMapSize =>
  let stackLeast := uwsub c.ws stackBase stackMapSize
  let stackSize := uwsub c.ws stackLeast i.sp
  let guardSize := c.page
  let canary := i.random
  .orPanic [] (calculateTlsSizeD c 0) fun t =>
  let call := Sys.mmap t.mapSize .readWrite (.ok i.map)
  let metadataAlign := max c.tls.align (metaAlign c.arch)
  .orPanic [call] (dassert (i.map % metadataAlign = 0)) fun _ =>
  let tlsData := uadd c.ws i.map t.tlsBottom
  let metadata := uadd c.ws i.map t.header
  .orPanic [call] (initializeTlsD c m junk tlsData metadata canary stackLeast stackSize guardSize 0) fun (m, newtls, tidPtr) =>
  let m := stN c.endian 4 m tidPtr i.tid
  .orPanic [call] (selfAssert c.arch (ldN c.endian c.ws m newtls = newtls)) fun _ =>
  .ok { mem := m, calls := [call], guardVar := canary, tp := newtls, tidAddr := tidPtr }

/-- `set_current_id_after_a_fork`: src/thread/linux_raw.rs:989-1002, with the assertions at 991-996; `gettid` is the kernel's answer. -/
def setCurrentIdAfterAForkD (c : Cfg) (m : Mem) (tp tid gettid : Nat) : Option Mem :=
  (dassert (tid ≠ ldN c.endian 4 m (uadd c.ws (current c tp) c.tl.tid))).bind fun _ =>
  (dassert (tid = gettid)).bind fun _ =>
  some (stN c.endian 4 m (uadd c.ws (current c tp) c.tl.tid) tid)

end Origin
