import Verif.Model.Libc
/-!
# The libc backend: stack queries, size defaults, `sigaction`

src/thread/libc.rs:290-337, src/signal/libc.rs:55-68.
-/

namespace Origin.Libc

/-- What libc keeps for the main thread.  (src/thread/libc.rs:290-307.) -/
structure MainAttr where
  addr : Nat
  stack : Nat
  guard : Nat

/-- `pthread_getattr_np`: of the thread with index `i`, or of the main thread (`none`).  `addrOf`: the lowest stack address that libc chose for each
thread.  The sizes are those of the attributes with which the thread was created.  (libc's; called at src/thread/libc.rs:290-307, 312-337.) -/
def getattr (w : World) (main : MainAttr) (addrOf : Nat → Nat) : Option Nat → Option (Nat × Nat × Nat)
  | none => some (main.addr, main.stack, main.guard)
  | some i => (w.threads[i]?).map fun t => (addrOf i, t.stack, t.guard)

/-- `stack`: src/thread/libc.rs:290-307; `none` is a failed assertion. -/
def stack (w : World) (main : MainAttr) (addrOf : Nat → Nat) (t : Option Nat) : Option (Nat × Nat × Nat) :=
  match getattr w main addrOf t with
  | some (addr, size, guard) => some (addr, size, guard)
  | none => none

/-- `default_stack_size`, called by thread `self`: src/thread/libc.rs:312-322. -/
def defaultStackSize (w : World) (main : MainAttr) (addrOf : Nat → Nat) (self : Option Nat) : Option Nat :=
  (getattr w main addrOf self).map fun x => x.2.1

/-- `default_guard_size`, called by thread `self`: src/thread/libc.rs:327-337. -/
def defaultGuardSize (w : World) (main : MainAttr) (addrOf : Nat → Nat) (self : Option Nat) : Option Nat :=
  (getattr w main addrOf self).map fun x => x.2.2

/-! ### `sigaction` -/

/-- A `*const Sigaction` in `sigaction`'s frame: null, or to a local variable.  A local's storage is `live` until the end of the block it is declared
in; what can be read from it after that is whatever the compiler has put there.  (src/signal/libc.rs:56-59.) -/
inductive Ptr (α : Type) where
  | null
  | toLocal (live : Bool) (value : α)

/-- The value read through the pointer, `junk` being what is in storage that is no longer live.  (libc's `sigaction`, src/signal/libc.rs:62.) -/
def Ptr.read {α : Type} (junk : α → α) : Ptr α → Option α
  | .null => none
  | .toLocal true v => some v
  | .toLocal false v => some (junk v)

/-- The end of a block: the storage of its locals is dead, pointers to them remain.  (Rust reference; src/signal/libc.rs:57.) -/
def Ptr.endOfBlock {α : Type} : Ptr α → Ptr α
  | .null => .null
  | .toLocal _ v => .toLocal false v

/-- `sigaction`: src/signal/libc.rs:55-68.  The pointer is to the variable `action` bound by the pattern `Some(action)`, whose scope is the arm of
the `match` (line 57).  `k`: libc's `sigaction`, giving the old action or `errno`. -/
def sigaction {α : Type} (junk : α → α) (k : Nat → Option α → Except Nat α) (sig : Nat) (action : Option α) : Except Nat α :=
  let ptr := match action with
    | some action => (Ptr.toLocal true action).endOfBlock
    | none => .null
  k sig (ptr.read junk)

end Origin.Libc
