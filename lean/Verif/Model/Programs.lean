import Verif.Model.User
/-!
# The repository's own example and test programs

As programs of `Model/User.lean`: one program point per statement that calls origin or does something observable.  A failing `assert!` goes to a program
point that ends the process with status 134 (an abort); closures are program points; the number of the thread `create` made goes to the points
after it.
-/

namespace Origin.Programs
open User

/-- The statements of example-crates/origin-start/src/main.rs:16-44. -/
inductive Ex
  /-- `origin_main`, lines 17-43; `u`: `thread` -/
  | m17 | m19 | m22 | m26 | m40 (u : Nat) | m42 | m43
  /-- the program's handler, lines 19-21 -/
  | p20 | p21
  /-- the main thread's handler, lines 22-24 -/
  | t23 | t24
  /-- the child thread, lines 27-33 -/
  | c28 | c29 | c32
  /-- its handler, lines 29-31 -/
  | d30 | d31
deriving DecidableEq, Repr

/-- A line printed with `eprintln!` (example-crates/origin-start/src/main.rs:17, 20, 23, 28, 30, 42). -/
def print {C : Type} (s : String) (k : C) : Op (List String) C := .mem fun o => (o ++ [s], k)

/-- example-crates/origin-start/src/main.rs:16-44.  The memory is what has been printed. -/
def originStart : Prg (List String) Ex where
  op
    | .m17 => print "Hello from main thread" .m19
    | .m19 => .atExitP .p20 .m22
    | .m22 => .atExitT .t23 .m26
    | .m26 => .create .c28 .m40
    | .m40 u => .join u fun _ => .m42
    | .m42 => print "Goodbye from main" .m43
    | .m43 => .exit 0
    | .p20 => print "Hello from a `program::at_exit` handler" .p21
    | .p21 => .ret 0
    | .t23 => print "Hello from a main-thread `thread::at_exit` handler" .t24
    | .t24 => .ret 0
    | .c28 => print "Hello from child thread" .c29
    | .c29 => .atExitT .d30 .c32
    | .c32 => .ret 0
    | .d30 => print "Hello from child thread's `thread::at_exit` handler" .d31
    | .d31 => .ret 0
  main := .m17
  ctors := []
  finis := []

/-- tests/utils/mod.rs:62-67: what the example is to print. -/
def commonStderr : List String :=
  ["Hello from main thread", "Hello from child thread", "Hello from child thread's `thread::at_exit` handler", "Goodbye from main",
   "Hello from a main-thread `thread::at_exit` handler", "Hello from a `program::at_exit` handler"]

/-- The statements of the three test programs test-crates/origin-start/src/bin/{main-thread,program,thread}-dtors-adding-dtors.rs. -/
inductive Dt
  /-- the function registering handlers: the first (asserts `FLAG`), the second (registers more), the third (asserts `!FLAG`); its end -/
  | r1 | r2 | r3 | r4
  /-- the first handler, the third, and their end; `bad`: an assertion failed -/
  | h1 | h3 | hRet | bad
  /-- the second handler, the one it registers, the one that registers -/
  | h2 | h22 | h222
  /-- `origin_main` of thread-dtors-adding-dtors.rs:20-50 -/
  | m0 | m1 (u : Nat) | m2
deriving DecidableEq, Repr

/-- `assert!(b)` about the memory (e.g. test-crates/origin-start/src/bin/main-thread-dtors-adding-dtors.rs:20, 32). -/
def check {σ C : Type} (p : σ → Bool) (k bad : C) : Op σ C := .mem fun s => (s, if p s then k else bad)

/-- test-crates/origin-start/src/bin/main-thread-dtors-adding-dtors.rs:17-36 (`inThread = false`, `prog = false`: `thread::at_exit`),
program-dtors-adding-dtors.rs:17-36 (`prog = true`: `program::at_exit`), thread-dtors-adding-dtors.rs:17-46 (`inThread = true`: in a thread that
`origin_main` creates and joins).  The memory is `FLAG`. -/
def adding (prog inThread : Bool) : Prg Bool Dt where
  op
    | .r1 => reg .h1 .r2
    | .r2 => reg .h2 .r3
    | .r3 => reg .h3 .r4
    | .r4 => .ret 0
    | .h1 => check id .hRet .bad
    | .h2 => reg .h22 .hRet
    | .h22 => reg .h222 .hRet
    | .h222 => .mem fun _ => (true, .hRet)
    | .h3 => check not .hRet .bad
    | .hRet => .ret 0
    | .bad => .immExit 134
    | .m0 => .create .r1 .m1
    | .m1 u => .join u fun _ => .m2
    | .m2 => .ret 0
  main := if inThread then .m0 else .r1
  ctors := []
  finis := []
where
  /-- `thread::at_exit` or `program::at_exit` (test-crates/origin-start/src/bin/{main-thread,program,thread}-dtors-adding-dtors.rs). -/
  reg (g k : Dt) : Op Bool Dt := if prog then .atExitP g k else .atExitT g k

/-- The statements of test-crates/origin-start/src/bin/detach.rs:14-46. -/
inductive De
  /-- `origin_main`; the arguments are the threads created so far -/
  | m15 | m23 (l : Nat) | m30 (l s : Nat) | m32 (l : Nat) | m43 (l : Nat) | m45
  /-- the functions of the first two threads (lines 16, 24); of the third (lines 33-36): `detach(current())`, which is thread 3 -/
  | f | g | g1
deriving DecidableEq, Repr

/-- test-crates/origin-start/src/bin/detach.rs:14-46. -/
def detachPrg : Prg Unit De where
  op
    | .m15 => .create .f .m23
    | .m23 l => .create .f (.m30 l)
    | .m30 l s => .detach s (.m32 l)
    | .m32 l => .create .g fun _ => .m43 l
    | .m43 l => .detach l .m45
    | .m45 => .exit 202
    | .f => .ret 0
    | .g => .detach 3 .g1
    | .g1 => .ret 0
  main := .m15
  ctors := []
  finis := []

/-- The statements of test-crates/origin-start/src/bin/tls.rs:20-82. -/
inductive Tl
  | m22 | m25 | m28 | m30 | m38 | m46 | m70 (u : Nat) | m73 | m76 | m79 | m81
  | p33 | p36 | t40 | t43 | c49 | c52 | c55 | c57 | c62 | d59 | ret | bad
deriving DecidableEq, Repr

/-- test-crates/origin-start/src/bin/tls.rs:20-82.  The memory: the second field of `THREAD_LOCAL` in the main thread's copy and in the child's, 0 standing for its
initial value.  (That each thread has its own copy, with the initial contents, is C07 and C12; here they are two variables.) -/
def tlsPrg : Prg (Nat × Nat) Tl where
  op
    | .m22 => check (fun s => s.1 == 0) .m25 .bad
    | .m25 => .mem fun s => ((77, s.2), .m28)
    | .m28 => check (fun s => s.1 == 77) .m30 .bad
    | .m30 => .atExitP .p33 .m38
    | .m38 => .atExitT .t40 .m46
    | .m46 => .create .c49 .m70
    | .m70 u => .join u fun _ => .m73
    | .m73 => check (fun s => s.1 == 77) .m76 .bad
    | .m76 => .mem fun s => ((78, s.2), .m79)
    | .m79 => check (fun s => s.1 == 78) .m81 .bad
    | .m81 => .exit 200
    | .p33 => check (fun s => s.1 == 79) .p36 .bad
    | .p36 => .mem fun s => ((80, s.2), .ret)
    | .t40 => check (fun s => s.1 == 78) .t43 .bad
    | .t43 => .mem fun s => ((79, s.2), .ret)
    | .c49 => check (fun s => s.2 == 0) .c52 .bad
    | .c52 => .mem fun s => ((s.1, 175), .c55)
    | .c55 => check (fun s => s.2 == 175) .c57 .bad
    | .c57 => .atExitT .d59 .c62
    | .c62 => .ret 0
    | .d59 => check (fun s => s.2 == 175) .ret .bad
    | .ret => .ret 0
    | .bad => .immExit 134
  main := .m22
  ctors := []
  finis := []

/-- The statements of test-crates/origin-start/src/bin/canary.rs:44-66. -/
inductive Ca
  | m45 | m46 | m48 | m60 (u : Nat) | m62 | m63 | m65
  | c50 | c51 | c52 | bad
deriving DecidableEq, Repr

/-- test-crates/origin-start/src/bin/canary.rs:44-66.  The memory (which nothing writes): whether `__stack_chk_guard` is not 0, whether the canary in the main
thread's TLS equals it, whether that in the child's does (that they do is C16). -/
def canaryPrg : Prg (Bool × Bool × Bool) Ca where
  op
    | .m45 => check (·.1) .m46 .bad
    | .m46 => check (·.2.1) .m48 .bad
    | .m48 => .create .c50 .m60
    | .m60 u => .join u fun _ => .m62
    | .m62 => check (·.1) .m63 .bad
    | .m63 => check (·.2.1) .m65 .bad
    | .m65 => .exit 203
    | .c50 => check (·.1) .c51 .bad
    | .c51 => check (·.2.2) .c52 .bad
    | .c52 => .ret 0
    | .bad => .immExit 134
  main := .m45
  ctors := []
  finis := []

/-- What the two threads of test-crates/origin-start/src/bin/thread-id.rs tell each other (lines 18-22). -/
inductive Id
  | parent (i : Nat)
  | child (i : Nat)
deriving DecidableEq, Repr

/-- The statements of test-crates/origin-start/src/bin/thread-id.rs:25-112. -/
inductive Ti
  /-- `assert_eq!(current_id(), id(current()).unwrap())` in thread `t`, going on at `k`: lines 26, 28, 31, 39, 41, 67, 110.  (`current()` is a number known
  from where the statement stands: the handlers of lines 27 and 30 run on the main thread.) -/
  | as1 (t : Nat) (k : Ti) | as2 (t : Nat) (r : Option Nat) (k : Ti) | as3 (r r' : Option Nat) (k : Ti)
  /-- `origin_main`; `u`: `thread`, `x`: `child_thread_id_from_main` -/
  | m27 | m30 | m37 | m77 (u : Nat) | m77' (u : Nat) (r : Option Nat) | m83 (u x : Nat) | m83' (u x : Nat) (r : Option Nat) | m91 (u x : Nat)
  | m101 (u : Nat) | m101' (u : Nat) (r : Option Nat) | m108 (u : Nat) | m111
  /-- the child; `i`: what it was told -/
  | c40 | c53 | c57 (i : Id) | c57' (i : Id) (r : Option Nat) | c63 | c63' (r : Option Nat)
  | ret | bad
deriving DecidableEq, Repr

/-- test-crates/origin-start/src/bin/thread-id.rs:25-112.  The memory is what the mutex protects; what is done under the lock is one step, and a
condition variable may wake up at any time (as its specification allows), so waiting is trying again. -/
def idPrg : Prg (Option Id) Ti where
  op
    | .as1 t k => .id t fun r => .as2 t r k
    | .as2 t r k => .id t fun r' => .as3 r r' k
    | .as3 r r' k => check (fun _ => r.isSome && r == r') k .bad
    | .m27 => .atExitP (.as1 0 .ret) .m30
    | .m30 => .atExitT (.as1 0 .ret) .m37
    | .m37 => .create (.as1 1 .c40) .m77
    | .m77 u => .id u fun r => .m77' u r
    | .m77' u r => .mem fun s => (s, match r with | some x => .m83 u x | none => .bad)
    | .m83 u x => .id 0 fun r => .m83' u x r
    | .m83' u x r => .mem fun _ => (some (.parent (r.getD 0)), .m91 u x)
    | .m91 u x => .mem fun s => (s, match s with | some (.child i) => if x = i then .m101 u else .bad | _ => .m91 u x)
    | .m101 u => .id u fun r => .m101' u r
    | .m101' u r => .mem fun s => (s, match r with | some _ => .m101 u | none => .m108 u)
    | .m108 u => .join u fun _ => .as1 0 .m111
    | .m111 => .exit 201
    | .c40 => .atExitT (.as1 1 .ret) .c53
    | .c53 => .mem fun s => (s, match s with | none => .c53 | some i => .c57 i)
    | .c57 i => .id 1 fun r => .c57' i r
    | .c57' i r => check (fun _ => some i != r.map .parent) .c63 .bad
    | .c63 => .id 1 fun r => .c63' r
    | .c63' r => .mem fun _ => (some (.child (r.getD 0)), .as1 1 .ret)
    | .ret => .ret 0
    | .bad => .immExit 134
  main := .as1 0 .m27
  ctors := []
  finis := []

end Origin.Programs
