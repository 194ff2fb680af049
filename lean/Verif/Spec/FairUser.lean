import Verif.Spec.User
import Verif.Spec.FairWhole
/-!
# Programs on fair schedules

As `Spec/FairWhole.lean`, for programs (`Model/User.lean`); and the same for origin's abstract machine (`Spec/User.lean`).
-/

namespace Origin.User

variable {σ C : Type}

/-- An infinite execution of a program from its start, with memory `m`, all of whose lifecycle actions satisfy `P`; `none` is a moment at which nothing
happens. -/
structure IsExec (pr : Prg σ C) (c : Proc.Cfg) (sig : Bool) (m : σ) (P : Life.State → Life.Action → Prop) (st : Nat → State σ C)
    (act : Nat → Option Action) : Prop where
  start : ∃ a tid, tid ≠ 0 ∧ st 0 = init m a tid
  idle : ∀ n, act n = none → st (n + 1) = st n
  next : ∀ n x, act n = some x → (∀ y z, x.whole pr (st n) = some y → y.life? = some z → P (st n).w.l z) ∧
    step pr c sig (st n) x = some (st (n + 1))

/-- Fair scheduling: no thread whose user code can go on is passed over for ever (`user`), nor one that is in `join`, `detach` or its own exit and can
go on (`threads`), nor one that is in the functions that call registered functions (`origin`); and the kernel completes exits.  (Weak fairness.) -/
structure Fair (pr : Prg σ C) (c : Proc.Cfg) (sig : Bool) (st : Nat → State σ C) (act : Nat → Option Action) : Prop where
  user : ∀ t n, ∃ m, n ≤ m ∧ ((∃ a tid, act m = some (.user t a tid)) ∨ ∀ a tid, step pr c sig (st m) (.user t a tid) = none)
  threads : ∀ t n, ∃ m, n ≤ m ∧ (act m = some (.sys (.life (.step t))) ∨ step pr c sig (st m) (.sys (.life (.step t))) = none)
  kernel : ∀ t n, ∃ m, n ≤ m ∧ ((∃ w, act m = some (.sys (.life (.wake t w)))) ∨ ∀ w, step pr c sig (st m) (.sys (.life (.wake t w))) = none)
  origin : ∀ t n, ∃ m, n ≤ m ∧ (act m = some (.sys (.proc (.step t))) ∨ act m = some (.sys (.release t)) ∨
    (step pr c sig (st m) (.sys (.proc (.step t))) = none ∧ step pr c sig (st m) (.sys (.release t)) = none))

/-! ## The abstract machine -/

/-- An infinite execution of the abstract machine; `who n` makes the step after `ab n`. -/
structure ARun (pr : Prg σ C) (locks : Bool) (m : σ) (ab : Nat → Abs σ C) (who : Nat → Option Nat) : Prop where
  start : ∃ tid, ab 0 = ainit pr m tid
  idle : ∀ n, who n = none → ab (n + 1) = ab n
  next : ∀ n t, who n = some t → ∃ r x, astep pr locks (ab n) t r x = some (ab (n + 1))

/-- No thread that can go on is passed over for ever. -/
def AFair (pr : Prg σ C) (locks : Bool) (ab : Nat → Abs σ C) (who : Nat → Option Nat) : Prop :=
  ∀ t n, ∃ m, n ≤ m ∧ (who m = some t ∨ ∀ r x, astep pr locks (ab m) t r x = none)

/-- Thread `t` is about to register a function. -/
def Abs.registers (pr : Prg σ C) (a : Abs σ C) (t : Nat) : Bool :=
  match a.thr[t]? with
  | some ⟨.run c _, _, _⟩ => match pr.op c with | .atExitT .. | .atExitP .. => true | _ => false
  | _ => false

/-- The answers of `id` (`rs`) and the ids of new threads (`xs`) on a run, with the threads whose `id` is `None` for good (`ls`): once `id` has said
`None`, or the id is another thread's, it never says the id again. -/
structure AAnswers (pr : Prg σ C) (locks : Bool) (ab : Nat → Abs σ C) (who : Nat → Option Nat) (ls : Nat → List Nat) (rs : Nat → Option Nat)
    (xs : Nat → Nat) : Prop where
  start : ls 0 = []
  idle : ∀ n, who n = none → ls (n + 1) = ls n
  next : ∀ n t, who n = some t → astep pr locks (ab n) t (rs n) (xs n) = some (ab (n + 1)) ∧ ls (n + 1) = (ab n).gone pr t (rs n) (xs n) ++ ls n
  stay : ∀ n t u, who n = some t → (ab n).asks pr t = some u → u ∈ ls n → rs n = none

/-- The answers of `id` are consistent; and when a thread has finished, its `id` is some day `None` for good. -/
def AIds (pr : Prg σ C) (locks : Bool) (ab : Nat → Abs σ C) (who : Nat → Option Nat) : Prop :=
  ∃ ls rs xs, AAnswers pr locks ab who ls rs xs ∧
    ∀ u n v l i, (ab n).thr[u]? = some ⟨.done v, l, i⟩ → ∃ N, ∀ k t, N ≤ k → who k = some t → (ab k).asks pr t = some u → rs k = none

/-- On no run of the machine, fair or not, does the program register functions for ever. -/
def Settles (pr : Prg σ C) (locks : Bool) (m : σ) : Prop :=
  ∀ ab who, ARun pr locks m ab who → ∃ N, ∀ n t, N ≤ n → who n = some t → (ab n).registers pr t = false

/-- The thread that thread `t` is about to `join` or `detach`. -/
def Abs.uses (pr : Prg σ C) (a : Abs σ C) (t : Nat) : Option Nat :=
  match a.thr[t]? with
  | some ⟨.run c _, _, _⟩ => match pr.op c with | .join u _ | .detach u _ => some u | _ => none
  | _ => none

/-- What the machine can do, with the threads that have been joined or detached. -/
inductive AReachU (pr : Prg σ C) (locks : Bool) (m : σ) : List Nat → Abs σ C → Prop
  | init (tid) : AReachU pr locks m [] (ainit pr m tid)
  | step {l a t r x a'} : AReachU pr locks m l a → astep pr locks a t r x = some a' → AReachU pr locks m ((a.uses pr t).toList ++ l) a'

/-- Thread `t` keeps to the contract of the call it is about to make: it joins or detaches a thread there is, which nobody has joined or detached or is
about to; it asks for the id of itself, or of a thread that nobody has joined or detached or is about to; and it uses features the program has. -/
def Abs.keeps (pr : Prg σ C) (c : Proc.Cfg) (l : List Nat) (a : Abs σ C) (t : Nat) : Prop :=
  match a.thr[t]? with
  | some ⟨.run cd _, _, _⟩ =>
    match pr.op cd with
    | .join u _ | .detach u _ => u < a.thr.length ∧ u ∉ l ∧ ∀ t', t' ≠ t → a.uses pr t' ≠ some u
    | .id u _ => u = t ∨ (u ∉ l ∧ ∀ t', a.uses pr t' ≠ some u)
    | .create .. => c.thread = true
    | .atExitT .. => c.threadAtExit = true
    | .atExitP .. => c.programAtExit = true
    | _ => True
  | _ => True

/-- A program that keeps to the contract, whatever the schedule. -/
def Proper (pr : Prg σ C) (c : Proc.Cfg) (m : σ) : Prop :=
  ∀ l a t, AReachU pr (c.thread && c.programAtExit) m l a → a.status = none → a.keeps pr c l t

end Origin.User
