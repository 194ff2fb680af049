import Verif.Model.User
/-!
# Fork-join programs

A program that creates any number of threads, each of which computes on a cell of its own, registers a function that does the rest of its work when
the thread ends, and returns a value; then joins them all, in order, and stores the values they returned.  Used in C74.
-/

namespace Origin.ForkJoin
open User

variable {S : Type}

/-- What the threads do: `n` threads; thread `i` makes the steps `body i`, then returns `val i` of what it has, and at its end makes the step `last i`. -/
structure Job (S : Type) where
  n : Nat
  start : Nat → S
  body : Nat → List (S → S)
  val : Nat → S → Nat
  last : Nat → S → S

/-- What thread `i` has when its function returns: its steps one after another, as if it were alone. -/
def Job.result (J : Job S) (i : Nat) : S := (J.body i).foldl (fun x f => f x) (J.start i)

/-- The memory: a cell for each thread; the values joined. -/
structure Mem (S : Type) where
  cell : Nat → S
  res : List Nat

def Mem.set (s : Mem S) (i : Nat) (x : S) : Mem S := { s with cell := fun j => if j = i then x else s.cell j }

/-- Program points. -/
inductive Pt
  /-- the main thread has created the threads `us`; it has to join `us`, having joined threads that returned `acc`; it has joined all -/
  | make (us : List Nat)
  | collect (us acc : List Nat)
  | fin
  /-- thread `i`: its start; at step `k`; returning `v`; in the function called at its end -/
  | begin (i : Nat)
  | work (i k : Nat)
  | give (v : Nat)
  | atEnd (i : Nat)
  | endRet
deriving DecidableEq, Repr

/-- The program. -/
def prg (J : Job S) : Prg (Mem S) Pt where
  op
    | .make us => if us.length < J.n then .create (.begin us.length) fun u => .make (us ++ [u]) else .mem fun s => (s, .collect us [])
    | .collect (u :: us) acc => .join u fun v => .collect us (acc ++ [v])
    | .collect [] acc => .mem fun s => ({ s with res := acc }, .fin)
    | .fin => .exit 0
    | .begin i => .atExitT (.atEnd i) (.work i 0)
    | .work i k => .mem fun s =>
      match (J.body i)[k]? with
      | some f => (s.set i (f (s.cell i)), .work i (k + 1))
      | none => (s, .give (J.val i (s.cell i)))
    | .give v => .ret v
    | .atEnd i => .mem fun s => (s.set i (J.last i (s.cell i)), .endRet)
    | .endRet => .ret 0
  main := .make []
  ctors := []
  finis := []

/-- The memory at the start. -/
def Job.mem0 (J : Job S) : Mem S := ⟨J.start, []⟩

end Origin.ForkJoin
