import Verif.Proof.User18
import Verif.Proof.Programs
set_option linter.unusedSimpArgs false
/-!
# C69, C70: programs

C69: whatever a program written against origin's API does, in any schedule, origin's abstract machine (`Spec/User.lean`) can do too.  C70: hence what
the repository's own example and test programs do, in every schedule.
-/

namespace Origin.User
open Proc (Frame Fn PFinished)
open Whole (userTop running news)

variable {σ C : Type} {pr : Prg σ C} {c : Proc.Cfg} {sig : Bool} {e : State σ C} {m : σ}

/-- The process has ended with status `st`. -/
def Ended (e : State σ C) (st : Int) : Prop := ∃ t x, Proc.Ev.group t x st ∈ e.w.p.log

/-- The process was killed by an access to memory that was gone. -/
def Crashed (e : State σ C) : Prop := e.w.crashed = true

/-- The abstract machine (with consistent answers of `id`) can get to a state with the memory and the exit status of `e`; and the process has not
crashed. -/
def Explained (pr : Prg σ C) (c : Proc.Cfg) (m : σ) (e : State σ C) : Prop :=
  ¬ Crashed e ∧ ∃ a, (∃ l, AReachI pr (locks c) m l a) ∧ a.mem = e.mem ∧ ∀ st, a.status = some st ↔ Ended e st

theorem explained (hok : c.Ok pr.ctors.length pr.finis.length) (R : Reach pr c sig m (Life.Orderly sig) e) : Explained pr c m e := by
  obtain ⟨a, ⟨l, A, -⟩, RR⟩ := sim_reachI hok R
  refine ⟨by simp [Crashed, R.calm.up], a, ⟨l, A⟩, RR.mem, fun st => ⟨fun h => ?_, fun ⟨t, x, h⟩ => RR.ended t x st h⟩⟩
  have hd : e.w.p.dead = true := by
    cases hx : e.w.p.dead with
    | true => rfl
    | false => rw [RR.status hx] at h; cases h
  obtain ⟨t, x, st', hg⟩ := dead_group R.calm.known.proc hd
  have := RR.ended t x st' hg
  rw [h] at this; cases this
  exact ⟨t, x, hg⟩

/-- **C69 (histories without stray wake-ups and late signals).** -/
theorem C69_refines_partial (hok : c.Ok pr.ctors.length pr.finis.length) (R : Reach pr c sig m (Life.Orderly sig) e) : Explained pr c m e :=
  explained hok R

/-- **C69 (every history of a program with at most one thread besides the main one** — it may create, and join, a thread; without the `signal`
feature, a program that does not call `detach`). -/
theorem C69_refines_one_thread (hok : c.Ok pr.ctors.length pr.finis.length) (hone : ∀ a, AReach pr (locks c) m a → a.thr.length ≤ 2)
    (hsig : sig = true ∨ NoDetach pr) (R : Reach pr c sig m (fun _ _ => True) e) : Explained pr c m e :=
  explained hok (R.one hok hone hsig)

/-- **C69 (every history of a program that calls neither `join` nor `detach`**, with any number of threads). -/
theorem C69_refines_no_wait (hok : c.Ok pr.ctors.length pr.finis.length) (hn : NoWait pr) (R : Reach pr c sig m (fun _ _ => True) e) :
    Explained pr c m e :=
  explained hok (R.free hn)

/-- No signal handler is run on the stack of a thread that, detached, has unmapped it.  (With the `signal` feature none can be.) -/
def NoLate (sig : Bool) (s : Life.State) (x : Life.Action) : Prop := sig = true ∨ ¬ Life.LateSignal s x

/-- **C69 (every history — without the `signal` feature, without late signals — of a program that waits only for threads created before its first
wait**, or detaches the calling thread): any number of threads, joined or detached in any order. -/
theorem C69_refines_early (hok : c.Ok pr.ctors.length pr.finis.length) (hearly : EarlyOnly pr (locks c) m) (R : Reach pr c sig m (NoLate sig) e) :
    Explained pr c m e :=
  explained hok (R.early hok hearly (.inr fun _ _ h => h)).1

/-- **C69 (every history at all of such a program, when it does not call `detach`).** -/
theorem C69_refines_early_joins (hok : c.Ok pr.ctors.length pr.finis.length) (hearly : EarlyOnly pr (locks c) m) (hn : NoDetach pr)
    (R : Reach pr c sig m (fun _ _ => True) e) : Explained pr c m e :=
  explained hok (R.early hok hearly (.inl hn)).1

/-! ## C70 -/

/-- What exploring the abstract machine shows about a program with at most one thread besides the main one. -/
theorem checked (hok : c.Ok pr.ctors.length pr.finis.length) (hi : NoId pr) (hd : NoDetach pr) {P : Abs σ C → Bool} {n : Nat}
    (h : ∀ lk, explore pr lk (fun a => decide (a.thr.length ≤ 2) && P a) n (ainit pr m 0) = true)
    (R : Reach pr c sig m (fun _ _ => True) e) :
    ¬ Crashed e ∧ ∃ a, P a = true ∧ a.mem = e.mem ∧ ∀ st, a.status = some st ↔ Ended e st := by
  have hx : ∀ a, AReach pr (locks c) m a → a.thr.length ≤ 2 ∧ P a.erase = true := by
    intro a A
    have := explore_sound hi (h (locks c)) A
    simp only [Bool.and_eq_true, decide_eq_true_eq, Abs.erase, List.length_map] at this
    exact this
  obtain ⟨h1, a, ⟨_, A⟩, h2, h3⟩ := C69_refines_one_thread hok (fun a A => (hx a A).1) (.inr hd) R
  exact ⟨h1, a.erase, (hx a A.reach).2, h2, h3⟩

end Origin.User

namespace Origin.Programs
open User

variable {c : Proc.Cfg} {sig : Bool}

/-- **C70 (example-crates/origin-start).** In every schedule: what the example has printed is a beginning of what it is expected to print
(tests/utils/mod.rs); when it ends, its status is 0 and it has printed all of that.  It never crashes. -/
theorem C70_origin_start (hok : c.Ok 0 0) {e : State (List String) Ex} (R : Reach originStart c sig [] (fun _ _ => True) e) :
    ¬ Crashed e ∧ e.mem <+: commonStderr ∧ ∀ st, Ended e st → st = 0 ∧ e.mem = commonStderr := by
  obtain ⟨h1, a, h2, h3, h4⟩ := checked (P := fun a => decide (a.mem <+: commonStderr) &&
      (match a.status with | none => true | some st => decide (st = 0 ∧ a.mem = commonStderr))) (n := 50) hok
    (by intro cd u k; cases cd <;> simp [originStart, print]) (by intro cd u k; cases cd <;> simp [originStart, print])
    (by decide) R
  simp only [Bool.and_eq_true, decide_eq_true_eq] at h2
  refine ⟨h1, h3 ▸ h2.1, fun st hst => ?_⟩
  rw [← h4] at hst
  have := h2.2
  rw [hst] at this
  simp only [decide_eq_true_eq] at this
  exact ⟨this.1, h3 ▸ this.2⟩

/-- **C70 (the three `*-dtors-adding-dtors` tests).** In every schedule: no assertion fails — when the test ends, its status is 0, and every handler
has run (the innermost has set the flag).  It never crashes. -/
theorem C70_dtors_adding_dtors (prog inThread : Bool) (hok : c.Ok 0 0) {e : State Bool Dt}
    (R : Reach (adding prog inThread) c sig false (fun _ _ => True) e) : ¬ Crashed e ∧ ∀ st, Ended e st → st = 0 ∧ e.mem = true := by
  obtain ⟨h1, a, h2, h3, h4⟩ := checked (P := fun a =>
      (match a.status with | none => true | some st => decide (st = 0 ∧ a.mem = true))) (n := 50)
    (by cases prog <;> cases inThread <;> exact hok)
    (by intro cd u k; cases cd <;> cases prog <;> simp [adding, adding.reg, check])
    (by intro cd u k; cases cd <;> cases prog <;> simp [adding, adding.reg, check])
    (by cases prog <;> cases inThread <;> decide) R
  refine ⟨h1, fun st hst => ?_⟩
  rw [← h4] at hst
  rw [hst] at h2
  simp only [decide_eq_true_eq] at h2
  exact ⟨h2.1, h3 ▸ h2.2⟩

/-- **C70 (the `tls` test).** In every schedule: no assertion fails — when the test ends, its status is 200, and the last handler has written 80.
It never crashes. -/
theorem C70_tls (hok : c.Ok 0 0) {e : State (Nat × Nat) Tl} (R : Reach tlsPrg c sig (0, 0) (fun _ _ => True) e) :
    ¬ Crashed e ∧ ∀ st, Ended e st → st = 200 ∧ e.mem = (80, 175) := by
  obtain ⟨h1, a, h2, h3, h4⟩ := checked (P := fun a =>
      (match a.status with | none => true | some st => decide (st = 200 ∧ a.mem = (80, 175)))) (n := 70) hok
    (by intro cd u k; cases cd <;> simp [tlsPrg, check])
    (by intro cd u k; cases cd <;> simp [tlsPrg, check])
    (by decide) R
  refine ⟨h1, fun st hst => ?_⟩
  rw [← h4] at hst
  rw [hst] at h2
  simp only [decide_eq_true_eq] at h2
  exact ⟨h2.1, h3 ▸ h2.2⟩

/-- **C70 (the `canary` test).** In every schedule: if the guard is not 0 and both threads' canaries equal it, no assertion fails — when the test ends,
its status is 203.  It never crashes. -/
theorem C70_canary (hok : c.Ok 0 0) {e : State (Bool × Bool × Bool) Ca} (R : Reach canaryPrg c sig (true, true, true) (fun _ _ => True) e) :
    ¬ Crashed e ∧ ∀ st, Ended e st → st = 203 := by
  obtain ⟨h1, a, h2, h3, h4⟩ := checked (P := fun a =>
      (match a.status with | none => true | some st => decide (st = 203))) (n := 40) hok
    (by intro cd u k; cases cd <;> simp [canaryPrg, check])
    (by intro cd u k; cases cd <;> simp [canaryPrg, check])
    (by decide) R
  refine ⟨h1, fun st hst => ?_⟩
  rw [← h4] at hst
  rw [hst] at h2
  simpa using h2

/-- **C70 (the `thread-id` test).** In every schedule, whatever ids the kernel gives: no assertion fails — when the test ends, its status is 201.  It
never crashes. -/
theorem C70_thread_id (hok : c.Ok 0 0) {e : State (Option Id) Ti} (R : Reach idPrg c sig none (fun _ _ => True) e) :
    ¬ Crashed e ∧ ∀ st, Ended e st → st = 201 := by
  have hd : NoDetach idPrg := by intro cd u k; cases cd <;> simp [idPrg, check]
  obtain ⟨h1, a, ⟨_, A⟩, h3, h4⟩ := C69_refines_one_thread hok (fun a A => (idInv A).len) (.inr hd) R
  have A := A.reach
  exact ⟨h1, fun st hst => (idInv A).status st ((h4 st).mpr hst)⟩

/-- **C70 (the `detach` test).** In every schedule (without the `signal` feature: if no signal handler runs on a stack that is gone): when the test
ends, its status is 202.  It never crashes. -/
theorem C70_detach (hok : c.Ok 0 0) {e : State Unit De} (R : Reach detachPrg c sig () (NoLate sig) e) :
    ¬ Crashed e ∧ ∀ st, Ended e st → st = 202 := by
  obtain ⟨R', -⟩ := R.early hok (detach_early _) (.inr fun _ _ h => h)
  obtain ⟨h1, a, ⟨_, A⟩, h3, h4⟩ := explained hok R'
  obtain ⟨w, A'⟩ := A.reach.noting
  exact ⟨h1, fun st hst => (dinv A').status st ((h4 st).mpr hst)⟩

end Origin.Programs

/-! ## The hypotheses are met; and C69 is false of every program and history -/

namespace Origin.User
open Programs

variable {σ C : Type} {pr : Prg σ C} {c : Proc.Cfg} {sig : Bool} {m : σ}

theorem reach_run {e e' : State σ C} : ∀ l, Reach pr c sig m (fun _ _ => True) e → run pr c sig e l = some e' → Reach pr c sig m (fun _ _ => True) e'
  | [], R, h => by cases h; exact R
  | x :: xs, R, h => by
    simp only [run, Option.bind_eq_some_iff] at h
    obtain ⟨e1, h1, h2⟩ := h
    exact reach_run xs (R.step (fun _ _ _ _ => trivial) h1) h2

/-- A configuration with all features and empty arrays. -/
def plain : Proc.Cfg where
  thread := true
  threadAtExit := true
  programAtExit := true
  initArray := true
  finiArray := true
  initStart := 64
  initEnd := 64
  finiStart := 64
  finiEnd := 64
  ws := 8
  args := ⟨0, 0, 0⟩

theorem plain_ok : plain.Ok 0 0 := by constructor <;> decide

/-- A program that makes a thread and joins it, makes another, which sets a flag, and joins it; then it looks at the flag. -/
inductive Tw | m0 | m1 (u : Nat) | m2 | m3 (u : Nat) | m4 | ok | bad | f | g | g1
deriving DecidableEq, Repr

def twice : Prg Bool Tw where
  op
    | .m0 => .create .f .m1
    | .m1 u => .join u fun _ => .m2
    | .m2 => .create .g .m3
    | .m3 u => .join u fun _ => .m4
    | .m4 => .mem fun s => (s, if s then .ok else .bad)
    | .ok => .exit 0
    | .bad => .exit 1
    | .f => .ret 5
    | .g => .mem fun _ => (true, .g1)
    | .g1 => .ret 0
  main := .m0
  ctors := []
  finis := []

abbrev st (t : Nat) : Action := .sys (.life (.step t))
abbrev ps (t : Nat) : Action := .sys (.proc (.step t))
abbrev us (t : Nat) (a : Nat := 0) (i : Nat := 0) : Action := .user t a i

/-- The second thread is made where the first was; the kernel's wake-up for the first thread's end comes only now, and `join` takes it for the
second's. -/
def twiceRun : List Action :=
  [ps 0, ps 0, us 0 200 2, st 1, us 1, .sys (.release 1), st 1, st 1, st 1, st 1, us 0, st 0, st 0, st 0, st 0, st 0,
   us 0 200 3, us 0, st 0, st 0, .sys (.life (.wake 1 (some 0))), st 0, st 0, st 0, st 0, us 0, us 0, ps 0, ps 0, ps 0, ps 0, ps 0]

/-- The process has ended with `st`, as a computation. -/
def endedB (e : State σ C) (st : Int) : Bool := e.w.p.log.any fun x => match x with | .group _ _ st' => decide (st' = st) | _ => false

theorem ended_of {e : State σ C} {st : Int} (h : endedB e st = true) : Ended e st := by
  simp only [endedB, List.any_eq_true] at h
  obtain ⟨x, hx, h⟩ := h
  cases x <;> simp at h
  subst h
  exact ⟨_, _, hx⟩

/-- A run reaches a state in which the process has ended with `st`. -/
theorem ends_run {st : Int} {a tid : Nat} (htid : tid ≠ 0) (l : List Action) (P : State σ C → Bool)
    (h : (run pr c sig (init m a tid) l).map (fun e => endedB e st && P e) = some true) :
    ∃ e, Reach pr c sig m (fun _ _ => True) e ∧ Ended e st ∧ P e = true := by
  rw [Option.map_eq_some_iff] at h
  obtain ⟨e, h1, h2⟩ := h
  rw [Bool.and_eq_true] at h2
  exact ⟨e, reach_run l (.init a tid htid) h1, ended_of h2.1, h2.2⟩

/-- **C69 is false** without a restriction: `twice` can end with status 1, having found the flag of a joined thread not set; the abstract machine
cannot. -/
theorem C69_false : ∃ e, Reach twice plain true false (fun _ _ => True) e ∧ ¬ Explained twice plain false e := by
  obtain ⟨e, R, he, -⟩ := ends_run (pr := twice) (c := plain) (sig := true) (m := false) (st := 1) (a := 100) (tid := 1) (by decide) twiceRun
    (fun _ => true) (by decide)
  refine ⟨e, R, ?_⟩
  rintro ⟨-, a, ⟨_, A⟩, -, h⟩
  have := explore_sound (pr := twice) (P := fun a => decide (a.status ≠ some 1)) (n := 40)
    (by intro cd u k; cases cd <;> simp [twice]) (by decide) A.reach
  rw [decide_eq_true_eq] at this
  exact this ((h 1).mpr he)

end Origin.User

/-! Runs in which the programs of C70 end as claimed (so the theorems' hypotheses are met by complete runs, and no claim about the status holds because the
process never ends). -/

namespace Origin.Programs
open User

abbrev rl (t : Nat) : Action := .sys (.release t)
abbrev wk (t u : Nat) : Action := .sys (.life (.wake t (some u)))
abbrev wn (t : Nat) : Action := .sys (.life (.wake t none))

/-- The example. -/
example : ∃ e, Reach originStart plain false [] (fun _ _ => True) e ∧ Ended e 0 ∧ decide (e.mem = commonStderr) = true :=
  ends_run (a := 100) (tid := 1) (by decide)
  [ps 0, ps 0, us 0, us 0, ps 0, ps 0, ps 0, us 0, us 0 200 2, us 0, st 0, st 0, st 1, us 1, us 1, us 1, ps 1, us 1, us 1, rl 1, st 1, st 1, st 1, st 1,
   wk 1 0, st 0, st 0, st 0, st 0, us 0, us 0, ps 0, us 0, us 0, ps 0, ps 0, ps 0, ps 0, ps 0, us 0, us 0, ps 0, ps 0, ps 0, ps 0]
    (fun e => decide (e.mem = commonStderr)) (by decide)

/-- `thread-dtors-adding-dtors`. -/
example : ∃ e, Reach (adding false true) plain false false (fun _ _ => True) e ∧ Ended e 0 ∧ e.mem = true :=
  ends_run (a := 100) (tid := 1) (by decide)
  [ps 0, ps 0, us 0 200 2, us 0, st 0, st 0, st 1, us 1, us 1, us 1, us 1, ps 1, us 1, us 1, ps 1, us 1, us 1, ps 1, us 1, us 1, ps 1, us 1, us 1, ps 1,
   us 1, us 1, rl 1, st 1, st 1, st 1, st 1, wk 1 0, st 0, st 0, st 0, st 0, us 0, ps 0, ps 0, ps 0, ps 0, ps 0]
    (fun e => e.mem) (by decide)

/-- `program-dtors-adding-dtors`. -/
example : ∃ e, Reach (adding true false) plain false false (fun _ _ => True) e ∧ Ended e 0 ∧ e.mem = true :=
  ends_run (a := 100) (tid := 1) (by decide)
  [ps 0, ps 0, us 0, ps 0, ps 0, ps 0, us 0, ps 0, ps 0, ps 0, us 0, ps 0, ps 0, ps 0, us 0, ps 0, ps 0, ps 0, ps 0, ps 0, us 0, us 0, ps 0, ps 0, ps 0,
   ps 0, us 0, ps 0, ps 0, ps 0, us 0, ps 0, ps 0, ps 0, ps 0, us 0, ps 0, ps 0, ps 0, us 0, ps 0, ps 0, ps 0, ps 0, us 0, us 0, ps 0, ps 0, ps 0, ps 0,
   us 0, us 0, ps 0, ps 0, ps 0, ps 0]
    (fun e => e.mem) (by decide)

/-- `main-thread-dtors-adding-dtors`. -/
example : ∃ e, Reach (adding false false) plain false false (fun _ _ => True) e ∧ Ended e 0 ∧ e.mem = true :=
  ends_run (a := 100) (tid := 1) (by decide)
  [ps 0, ps 0, us 0, us 0, us 0, us 0, ps 0, us 0, us 0, ps 0, us 0, us 0, ps 0, us 0, us 0, ps 0, us 0, us 0, ps 0, us 0, us 0, ps 0, ps 0, ps 0, ps 0,
   ps 0]
    (fun e => e.mem) (by decide)

/-- `tls`. -/
example : ∃ e, Reach tlsPrg plain false (0, 0) (fun _ _ => True) e ∧ Ended e 200 ∧ decide (e.mem = (80, 175)) = true :=
  ends_run (a := 100) (tid := 1) (by decide)
  [ps 0, ps 0, us 0, us 0, us 0, us 0, ps 0, ps 0, ps 0, us 0, us 0 200 2, us 0, st 1, st 0, us 1, st 0, us 1, us 1, us 1, us 1, ps 1, us 1, us 1, rl 1,
   st 1, st 1, st 1, st 1, wk 1 0, st 0, st 0, st 0, st 0, us 0, us 0, us 0, us 0, ps 0, us 0, us 0, us 0, ps 0, ps 0, ps 0, ps 0, ps 0, us 0, us 0, us 0,
   ps 0, ps 0, ps 0, ps 0]
    (fun e => decide (e.mem = (80, 175))) (by decide)

/-- `canary`. -/
example : ∃ e, Reach canaryPrg plain false (true, true, true) (fun _ _ => True) e ∧ Ended e 203 ∧ true = true :=
  ends_run (a := 100) (tid := 1) (by decide)
  [ps 0, ps 0, us 0, us 0, us 0 200 2, us 0, st 1, st 0, us 1, st 0, us 1, us 1, rl 1, st 1, st 1, st 1, st 1, wk 1 0, st 0, st 0, st 0, st 0, us 0,
   us 0, us 0, ps 0, ps 0, ps 0, ps 0, ps 0]
    (fun e => true) (by decide)

/-- `thread-id`. -/
example : ∃ e, Reach idPrg plain false none (fun _ _ => True) e ∧ Ended e 201 ∧ Option.isSome e.mem = true :=
  ends_run (a := 100) (tid := 1) (by decide)
  [ps 0, ps 0, us 0, us 0, us 0, us 0, ps 0, ps 0, ps 0, us 0, us 0 200 2, us 0, st 1, us 0, us 1, us 0, us 1, us 0, us 1, us 0, us 1, us 0, us 1, us 0,
   us 1, us 0, us 1, us 0, us 1, us 0, us 1, us 0, us 1, us 0, us 1, us 0, us 1, us 0, us 1, us 0, ps 1, us 0, us 1, us 0, us 1, us 0, us 1, us 0, us 1,
   us 0, rl 1, us 0, st 1, us 0, st 1, us 0, st 1, us 0, st 1, us 0, wn 1, us 0, us 0, us 0, st 0, st 0, st 0, st 0, st 0, us 0, us 0, us 0, us 0, ps 0,
   us 0, us 0, us 0, us 0, ps 0, ps 0, ps 0, ps 0, ps 0, us 0, us 0, us 0, us 0, ps 0, ps 0, ps 0, ps 0]
    (fun e => Option.isSome e.mem) (by decide)

/-- `detach` (the schedule has no late signal: no signal at all). -/
example : ∃ e, Reach detachPrg plain true () (fun _ _ => True) e ∧ Ended e 202 ∧ true = true :=
  ends_run (a := 100) (tid := 1) (by decide)
  [ps 0, ps 0, us 0 200 2, us 0 300 3, us 0, st 0, us 0 400 4, us 0, st 0, us 0, ps 0, ps 0, ps 0, ps 0, ps 0]
    (fun e => true) (by decide)

/-- **C70 is false of `detach` without the `signal` feature**: a signal handler run on the stack of the detached thread, which has unmapped it, kills the
process. -/
theorem C70_detach_false : ∃ e, Reach detachPrg plain false () (fun _ _ => True) e ∧ Crashed e := by
  have h : (run detachPrg plain false (init () 100 1)
      [ps 0, ps 0, us 0 200 2, us 0 300 3, us 0, st 0, st 2, us 2, rl 2, st 2, st 2, st 2, st 2, st 2, st 2, .sys (.life (.signal 2))]).map
      (fun e => e.w.crashed) = some true := by decide
  rw [Option.map_eq_some_iff] at h
  obtain ⟨e, h1, h2⟩ := h
  exact ⟨e, reach_run _ (.init 100 1 (by decide)) h1, h2⟩

/-- A program that makes threads, each of which adds one to a counter, until it sees the counter at 10; it waits for none. -/
inductive Sp | m | m1 | done | c | c1
deriving DecidableEq, Repr

def spawner : Prg Nat Sp where
  op
    | .m => .create .c fun _ => .m1
    | .m1 => .mem fun s => (s, if s < 10 then .m else .done)
    | .done => .ret 0
    | .c => .mem fun s => (s + 1, .c1)
    | .c1 => .ret 0
  main := .m
  ctors := []
  finis := []

/-- The hypotheses of `C69_refines_early` are met by `detachPrg`, of `C69_refines_one_thread` by `idPrg`, of `C69_refines_no_wait` by
`spawner`. -/
example : EarlyOnly detachPrg true () ∧ (∀ a, AReach idPrg true none a → a.thr.length ≤ 2) ∧ NoDetach idPrg ∧ NoWait spawner := by
  refine ⟨detach_early _, fun a A => (idInv A).len, ?_, ?_, ?_⟩
  · intro cd u k; cases cd <;> simp [idPrg, check]
  · intro cd u k; cases cd <;> simp [spawner]
  · intro cd u k; cases cd <;> simp [spawner]

end Origin.Programs
