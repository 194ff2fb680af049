import Verif.Model.User
/-!
# What origin's API means to a program

The abstract machine of origin's documentation: no call stacks, locks, records, futexes or kernel.  A thread runs a user function; when the function
returns, what comes next is given by `After`.  `thread::at_exit` puts a function on the front of the thread's list, `program::at_exit` on the front of
the program's; `join` waits until the thread has run all its functions, and gives the value of its function; `exit` runs the rest of the calling
thread's functions, then the program's, then those of `.fini_array`, last slot first, then ends the process.
-/

namespace Origin.User

/-- What a thread does after the user function it is running. -/
inductive After (C : Type)
  /-- call these constructors, then `origin_main` -/
  | ctors (l : List C)
  /-- (running `origin_main`:) `exit` with its value -/
  | main
  /-- (running the function of a thread:) the thread's `at_exit` functions -/
  | start
  /-- the rest of the thread's `at_exit` functions; then the thread is done, with value `v` -/
  | ending (v : Nat)
  /-- in `exit(st)`: the rest of the thread's functions, then `exitP` -/
  | exitT (st : Int)
  /-- in `exit(st)`: the rest of the program's functions, then `fini` -/
  | exitP (st : Int)
  /-- in `exit(st)`: these `.fini_array` functions, then `imm` -/
  | fini (st : Int) (l : List C)
  /-- end the process -/
  | imm (st : Int)
deriving DecidableEq, Repr

/-- Where a thread is. -/
inductive Pos (C : Type)
  /-- in user code, at `c` -/
  | run (c : C) (k : After C)
  /-- between user functions -/
  | next (k : After C)
  /-- finished, with value `v` -/
  | done (v : Nat)
deriving DecidableEq, Repr

structure AThr (C : Type) where
  pos : Pos C
  /-- its `at_exit` functions, newest first -/
  fns : List C
  /-- its id -/
  tid : Nat
deriving DecidableEq, Repr

/-- A state of the abstract machine. -/
structure Abs (σ C : Type) where
  mem : σ
  /-- threads in order of creation; the first is the main thread -/
  thr : List (AThr C)
  /-- the program's `at_exit` functions, newest first -/
  fns : List C
  /-- an `exit` has found no more functions; in a program with threads nobody can register or take any from now on -/
  closed : Bool
  /-- the process has ended with this status -/
  status : Option Int
deriving DecidableEq, Repr

variable {σ C : Type}

/-- No thread that is not finished has id `x`. -/
def Abs.tidFree (a : Abs σ C) (x : Nat) : Bool :=
  a.thr.all fun T => match T.pos with | .done _ => true | _ => T.tid != x

def Abs.setThr (a : Abs σ C) (t : Nat) (T : AThr C) : Abs σ C := { a with thr := a.thr.set t T }

/-- User code of thread `t` (which is `T`, at `cd`) makes operation `o`.  `r`: the answer of `id`; `x`: the id of a new thread. -/
def opStep (a : Abs σ C) (t : Nat) (T : AThr C) (k : After C) (r : Option Nat) (x : Nat) : Op σ C → Option (Abs σ C)
  | .mem f => some ({ a with mem := (f a.mem).1 }.setThr t { T with pos := .run (f a.mem).2 k })
  | .ret v => some (a.setThr t { T with pos := match k with | .main => .next (.exitT v) | .start => .next (.ending v.toNat) | k => .next k })
  | .atExitT g c => some (a.setThr t { T with pos := .run c k, fns := g :: T.fns })
  | .atExitP g c => if a.closed then none else some ({ a with fns := g :: a.fns }.setThr t { T with pos := .run c k })
  | .create g c =>
    if x ≠ 0 ∧ a.tidFree x = true then
      some { a with thr := a.thr.set t { T with pos := .run (c a.thr.length) k } ++ [⟨.run g .start, [], x⟩] }
    else none
  | .join u c =>
    match a.thr[u]? with
    | some ⟨.done v, _, _⟩ => some (a.setThr t { T with pos := .run (c v) k })
    | _ => none
  | .detach _ c => some (a.setThr t { T with pos := .run c k })
  | .id u c =>
    match a.thr[u]? with
    | some U =>
      match r, U.pos with
      | some i, _ => if i = U.tid then some (a.setThr t { T with pos := .run (c r) k }) else none
      | none, .done _ => some (a.setThr t { T with pos := .run (c r) k })
      | _, _ => none
    | none => none
  | .exit st => some (a.setThr t { T with pos := .next (.exitT st) })
  | .immExit st => some (a.setThr t { T with pos := .next (.imm st) })

/-- Between user functions.  `locks`: the program has threads and `program::at_exit`. -/
def nextStep (pr : Prg σ C) (locks : Bool) (a : Abs σ C) (t : Nat) (T : AThr C) : After C → Option (Abs σ C)
  | .ctors (c :: l) => some (a.setThr t { T with pos := .run c (.ctors l) })
  | .ctors [] => some (a.setThr t { T with pos := .run pr.main .main })
  | .main | .start => none
  | .ending v =>
    match T.fns with
    | g :: l => some (a.setThr t { T with pos := .run g (.ending v), fns := l })
    | [] => some (a.setThr t { T with pos := .done v })
  | .exitT st =>
    match T.fns with
    | g :: l => some (a.setThr t { T with pos := .run g (.exitT st), fns := l })
    | [] => some (a.setThr t { T with pos := .next (.exitP st) })
  | .exitP st =>
    if a.closed then none
    else match a.fns with
      | g :: l => some ({ a with fns := l }.setThr t { T with pos := .run g (.exitP st) })
      | [] => some ({ a with closed := locks }.setThr t { T with pos := .next (.fini st pr.finis.reverse) })
  | .fini st (c :: l) => some (a.setThr t { T with pos := .run c (.fini st l) })
  | .fini st [] => some (a.setThr t { T with pos := .next (.imm st) })
  | .imm st => some { a with status := some st }

/-- Thread `t` makes its next step. -/
def astep (pr : Prg σ C) (locks : Bool) (a : Abs σ C) (t : Nat) (r : Option Nat) (x : Nat) : Option (Abs σ C) :=
  if a.status.isSome then none
  else match a.thr[t]? with
    | none => none
    | some T =>
      match T.pos with
      | .run c k => opStep a t T k r x (pr.op c)
      | .next k => nextStep pr locks a t T k
      | .done _ => none

/-- The start: one thread, about to call the constructors. -/
def ainit (pr : Prg σ C) (m : σ) (tid : Nat) : Abs σ C :=
  { mem := m, thr := [⟨.next (.ctors pr.ctors), [], tid⟩], fns := [], closed := false, status := none }

/-- What the machine can do, threads taking turns arbitrarily. -/
inductive AReach (pr : Prg σ C) (locks : Bool) (m : σ) : Abs σ C → Prop
  | init (tid) : AReach pr locks m (ainit pr m tid)
  | step {a t r x a'} : AReach pr locks m a → astep pr locks a t r x = some a' → AReach pr locks m a'

/-- Thread `t` is about to call `join` or `detach`. -/
def Abs.waits (pr : Prg σ C) (a : Abs σ C) (t : Nat) : Bool :=
  match a.thr[t]? with
  | some ⟨.run c _, _, _⟩ => match pr.op c with | .join .. | .detach .. => true | _ => false
  | _ => false

/-- The thread whose `id` thread `t` is about to ask. -/
def Abs.asks (pr : Prg σ C) (a : Abs σ C) (t : Nat) : Option Nat :=
  match a.thr[t]? with
  | some ⟨.run c _, _, _⟩ => match pr.op c with | .id u _ => some u | _ => none
  | _ => none

/-- Thread `t` is about to create a thread. -/
def Abs.creates (pr : Prg σ C) (a : Abs σ C) (t : Nat) : Bool :=
  match a.thr[t]? with
  | some ⟨.run c _, _, _⟩ => match pr.op c with | .create .. => true | _ => false
  | _ => false

/-- The threads whose `id` is `None` for good once `t` has made its step (`r`: the answer of `id`; `x`: the id of a new thread): one whose `id` was
found to be `None`, and those that had the id the new thread gets. -/
def Abs.gone (pr : Prg σ C) (a : Abs σ C) (t : Nat) (r : Option Nat) (x : Nat) : List Nat :=
  (match a.asks pr t, r with | some u, none => [u] | _, _ => []) ++
  if a.creates pr t then (List.range a.thr.length).filter fun u => match a.thr[u]? with | some U => U.tid == x | none => false else []

/-- The same, with the threads whose `id` is `None` for good: once `id` has said `None`, or the id is another thread's, it never says the id again. -/
inductive AReachI (pr : Prg σ C) (locks : Bool) (m : σ) : List Nat → Abs σ C → Prop
  | init (tid) : AReachI pr locks m [] (ainit pr m tid)
  | step {l a t r x a'} : AReachI pr locks m l a → astep pr locks a t r x = some a' → (∀ u ∈ l, a.asks pr t = some u → r = none) →
      AReachI pr locks m (a.gone pr t r x ++ l) a'

/-- The number of threads at the first wait: `w` so far; now there are `n`, and one of them waits if `b`. -/
def noteWait (w : Option Nat) (b : Bool) (n : Nat) : Option Nat :=
  match w with
  | some k => some k
  | none => if b then some n else none

/-- The same, remembering how many threads there were when `join` or `detach` was first called. -/
inductive AReachW (pr : Prg σ C) (locks : Bool) (m : σ) : Option Nat → Abs σ C → Prop
  | init (tid) : AReachW pr locks m none (ainit pr m tid)
  | step {w a t r x a'} : AReachW pr locks m w a → astep pr locks a t r x = some a' →
      AReachW pr locks m (noteWait w (a.waits pr t) a.thr.length) a'

/-- If thread `t` is about to `join` or `detach` a thread, it is one of the first `n`, or it is `t` detaching itself. -/
def Abs.early (pr : Prg σ C) (n : Nat) (a : Abs σ C) (t : Nat) : Prop :=
  match a.thr[t]? with
  | some ⟨.run c _, _, _⟩ =>
    match pr.op c with
    | .join u _ => u < a.thr.length → u < n
    | .detach u _ => u < a.thr.length → u < n ∨ u = t
    | _ => True
  | _ => True

/-- A program that never joins a thread created after the first `join` or `detach`, and does not detach one either, except that a thread may detach
itself.  (A program that creates all its threads first is such a program.) -/
def EarlyOnly (pr : Prg σ C) (locks : Bool) (m : σ) : Prop := ∀ n a t, AReachW pr locks m (some n) a → a.early pr n t

end Origin.User
