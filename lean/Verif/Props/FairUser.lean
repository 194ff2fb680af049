import Verif.Proof.User16
import Verif.Props.User
import Verif.Proof.User17
import Verif.Proof.Programs4
set_option linter.unusedSimpArgs false
/-!
# C71: programs on fair schedules

C69 says that a program does nothing origin's abstract machine could not do.  C71 says that it also does what the machine must do: on a fair schedule
the program follows a *fair* run of the abstract machine.  So whatever the machine does on every fair run — end, with some status — the program does on
every fair schedule.
-/

namespace Origin.User
open Proc (Frame Fn PFinished)
open Whole (userTop running news)

variable {σ C : Type} {pr : Prg σ C} {c : Proc.Cfg} {sig : Bool} {m : σ}
variable {st : Nat → State σ C} {act : Nat → Option Action}

/-- There is a fair run of the abstract machine that has, at every moment, the memory and the exit status of the execution; and the process never
crashes. -/
def Follows (pr : Prg σ C) (c : Proc.Cfg) (m : σ) (st : Nat → State σ C) : Prop :=
  (∀ n, ¬ Crashed (st n)) ∧ ∃ ab who, ARun pr (locks c) m ab who ∧ AFair pr (locks c) ab who ∧ AIds pr (locks c) ab who ∧
    ∀ n, (ab n).mem = (st n).mem ∧ ∀ v, (ab n).status = some v ↔ Ended (st n) v

theorem Tracks.follows {ab : Nat → Abs σ C} {who : Nat → Option Nat} {us : Nat → List Nat} (T : Tracks pr c m st act ab who us)
    (h0 : ∃ tid, ab 0 = ainit pr m tid) (hok : c.Ok pr.ctors.length pr.finis.length)
    (X : IsExec pr c sig m (Life.Orderly sig) st act) (F : Fair pr c sig st act) (hp : Proper pr c m)
    (hm : Proc.FinitelyMany (fun n => (st n).w.p)) : Follows pr c m st := by
  refine ⟨fun n => by simp [Crashed, (X.reach n).calm.up], ab, who, T.run h0, T.fair hok X F hp hm, T.ids hok X F, fun n => ⟨(T.rel n).mem, fun v => ⟨fun h => ?_, ?_⟩⟩⟩
  · have hd : (st n).w.p.dead = true := by
      cases hx : (st n).w.p.dead with
      | true => rfl
      | false => rw [(T.rel n).status hx] at h; cases h
    obtain ⟨t, x, v', hg⟩ := dead_group (X.reach n).calm.known.proc hd
    have := (T.rel n).ended t x v' hg
    rw [h] at this; cases this
    exact ⟨t, x, hg⟩
  · rintro ⟨t, x, h⟩
    exact (T.rel n).ended t x v h

theorem follows (hok : c.Ok pr.ctors.length pr.finis.length) (hp : Proper pr c m) (X : IsExec pr c sig m (Life.Orderly sig) st act)
    (F : Fair pr c sig st act) (hm : Proc.FinitelyMany (fun n => (st n).w.p)) : Follows pr c m st := by
  obtain ⟨ab, who, us, T, h0⟩ := X.tracks hok
  exact T.follows h0 hok X F hp hm

/-- **C71 (histories without stray wake-ups and late signals).** A program that keeps to the contract, on a fair schedule on which it registers finitely
many functions, follows a fair run of the abstract machine. -/
theorem C71_fair_partial (hok : c.Ok pr.ctors.length pr.finis.length) (hp : Proper pr c m) (X : IsExec pr c sig m (Life.Orderly sig) st act)
    (F : Fair pr c sig st act) (hm : Proc.FinitelyMany (fun n => (st n).w.p)) : Follows pr c m st :=
  follows hok hp X F hm

/-- **C71 (every fair schedule of a program with at most one thread besides the main one** — without the `signal` feature, one that does not call
`detach`). -/
theorem C71_fair_one_thread (hok : c.Ok pr.ctors.length pr.finis.length) (hp : Proper pr c m)
    (hone : ∀ a, AReach pr (locks c) m a → a.thr.length ≤ 2) (hsig : sig = true ∨ NoDetach pr)
    (X : IsExec pr c sig m (fun _ _ => True) st act) (F : Fair pr c sig st act) (hm : Proc.FinitelyMany (fun n => (st n).w.p)) : Follows pr c m st :=
  follows hok hp (X.orderly fun _ ih _ hs => ih.one_step hok hone hsig hs) F hm

/-- **C71 (every fair schedule of a program that calls neither `join` nor `detach`).** -/
theorem C71_fair_no_wait (hok : c.Ok pr.ctors.length pr.finis.length) (hp : Proper pr c m) (hn : NoWait pr)
    (X : IsExec pr c sig m (fun _ _ => True) st act) (F : Fair pr c sig st act) (hm : Proc.FinitelyMany (fun n => (st n).w.p)) : Follows pr c m st :=
  follows hok hp (X.orderly fun _ ih _ hs => ih.free_step hn hs) F hm

/-- **C71 (every fair schedule — without the `signal` feature, without late signals — of a program that waits only for threads created before its first
wait**, or detaches the calling thread). -/
theorem C71_fair_early (hok : c.Ok pr.ctors.length pr.finis.length) (hp : Proper pr c m) (hearly : EarlyOnly pr (locks c) m)
    (X : IsExec pr c sig m (NoLate sig) st act) (F : Fair pr c sig st act) (hm : Proc.FinitelyMany (fun n => (st n).w.p)) : Follows pr c m st :=
  follows hok hp (X.orderly fun R _ hP hs => R.early_step hok hearly (.inr fun _ _ h => h) hP hs) F hm

/-- **C71 (every fair schedule at all of such a program, when it does not call `detach`).** -/
theorem C71_fair_early_joins (hok : c.Ok pr.ctors.length pr.finis.length) (hp : Proper pr c m) (hearly : EarlyOnly pr (locks c) m) (hn : NoDetach pr)
    (X : IsExec pr c sig m (fun _ _ => True) st act) (F : Fair pr c sig st act) (hm : Proc.FinitelyMany (fun n => (st n).w.p)) : Follows pr c m st :=
  follows hok hp (X.orderly fun R _ hP hs => R.early_step hok hearly (.inl hn) hP hs) F hm

end Origin.User

/-! ## C72 -/

namespace Origin.User

variable {σ C : Type} {pr : Prg σ C} {c : Proc.Cfg} {sig : Bool} {m : σ}
variable {st : Nat → State σ C} {act : Nat → Option Action}

/-- Whether the program registers finitely many functions can be seen on the abstract machine. -/
theorem many_of_settles (hok : c.Ok pr.ctors.length pr.finis.length) (X : IsExec pr c sig m (Life.Orderly sig) st act) (h : Settles pr (locks c) m) :
    Proc.FinitelyMany (fun n => (st n).w.p) := by
  obtain ⟨ab, who, us, T, h0⟩ := X.tracks hok
  obtain ⟨N, hN⟩ := h ab who (T.run h0)
  exact T.many X hN

/-- What exploring the abstract machine shows about fair schedules of a program with at most one thread besides the main one. -/
theorem checked_ends (hok : c.Ok pr.ctors.length pr.finis.length) (hi : NoId pr) (hd : NoDetach pr) {P : Abs σ C → Bool} {n : Nat}
    (h : exploreU pr (c.thread && c.programAtExit) (feats c) (fun a => decide (a.thr.length ≤ 2) && P a) n [] (ainit pr m 0) = true)
    (X : IsExec pr c sig m (fun _ _ => True) st act) (F : Fair pr c sig st act) :
    ∃ n v a, Ended (st n) v ∧ P a = true ∧ a.mem = (st n).mem ∧ a.status = some v := by
  have hone : ∀ a, AReach pr (locks c) m a → a.thr.length ≤ 2 := by
    intro a A
    obtain ⟨l, A⟩ := A.used
    obtain ⟨k, hk⟩ := exploreU_sound hi h A
    have := exploreU_P hk
    simp only [Bool.and_eq_true, decide_eq_true_eq, Abs.erase, List.length_map] at this
    exact this.1
  have X' := X.orderly fun _ ih _ hs => ih.one_step hok hone (.inr hd) hs
  obtain ⟨-, ab, who, R, AF, -, hq⟩ := C71_fair_one_thread hok (exploreU_proper hi h) hone (.inr hd) X F (many_of_settles hok X' (exploreU_settles hi h))
  obtain ⟨N, v, hN⟩ := R.ends AF hi h
  obtain ⟨h1, h2⟩ := hN N (Nat.le_refl _)
  rw [Bool.and_eq_true] at h2
  exact ⟨N, v, (ab N).erase, ((hq N).2 v).mp h1, h2.2, (hq N).1, h1⟩

end Origin.User

namespace Origin.Programs
open User

variable {c : Proc.Cfg} {sig : Bool}

/-- **C72 (example-crates/origin-start).** On every fair schedule the example ends, with status 0, having printed what it is to print. -/
theorem C72_origin_start (hok : c.Ok 0 0) (h1 : c.thread = true) (h2 : c.threadAtExit = true) (h3 : c.programAtExit = true)
    {st : Nat → State (List String) Ex} {act : Nat → Option Action} (X : IsExec originStart c sig [] (fun _ _ => True) st act)
    (F : Fair originStart c sig st act) : ∃ n, Ended (st n) 0 ∧ (st n).mem = commonStderr := by
  obtain ⟨n, v, a, q1, q2, q3, q4⟩ := checked_ends (P := fun a => (match a.status with | none => true | some st => decide (st = 0 ∧ a.mem = commonStderr))) (n := 50) hok
    (by intro cd u k; cases cd <;> simp [originStart, print]) (by intro cd u k; cases cd <;> simp [originStart, print])
    (by rw [feats, h1, h2, h3]; decide) X F
  rw [q4] at q2
  simp only [decide_eq_true_eq] at q2
  obtain ⟨rfl, q2⟩ := q2
  exact ⟨n, q1, q3 ▸ q2⟩

/-- **C72 (the three `*-dtors-adding-dtors` tests).** On every fair schedule the test ends, with status 0, having run every handler. -/
theorem C72_dtors_adding_dtors (prog inThread : Bool) (hok : c.Ok 0 0) (h1 : inThread = true → c.thread = true)
    (h2 : prog = false → c.threadAtExit = true) (h3 : prog = true → c.programAtExit = true)
    {st : Nat → State Bool Dt} {act : Nat → Option Action} (X : IsExec (adding prog inThread) c sig false (fun _ _ => True) st act)
    (F : Fair (adding prog inThread) c sig st act) : ∃ n, Ended (st n) 0 ∧ (st n).mem = true := by
  obtain ⟨n, v, a, q1, q2, q3, q4⟩ := checked_ends (P := fun a => (match a.status with | none => true | some st => decide (st = 0 ∧ a.mem = true))) (n := 50)
    (by cases prog <;> cases inThread <;> exact hok)
    (by intro cd u k; cases cd <;> cases prog <;> simp [adding, adding.reg, check])
    (by intro cd u k; cases cd <;> cases prog <;> simp [adding, adding.reg, check])
    (by
      clear hok X F
      revert h1 h2 h3
      rw [feats]
      generalize c.thread = x; generalize c.threadAtExit = y; generalize c.programAtExit = z
      revert prog inThread x y z
      decide) X F
  rw [q4] at q2
  simp only [decide_eq_true_eq] at q2
  obtain ⟨rfl, q2⟩ := q2
  exact ⟨n, q1, q3 ▸ q2⟩

/-- **C72 (the `tls` test).** On every fair schedule the test ends, with status 200. -/
theorem C72_tls (hok : c.Ok 0 0) (h1 : c.thread = true) (h2 : c.threadAtExit = true) (h3 : c.programAtExit = true)
    {st : Nat → State (Nat × Nat) Tl} {act : Nat → Option Action} (X : IsExec tlsPrg c sig (0, 0) (fun _ _ => True) st act)
    (F : Fair tlsPrg c sig st act) : ∃ n, Ended (st n) 200 ∧ (st n).mem = (80, 175) := by
  obtain ⟨n, v, a, q1, q2, q3, q4⟩ := checked_ends (P := fun a => (match a.status with | none => true | some st => decide (st = 200 ∧ a.mem = (80, 175)))) (n := 70) hok
    (by intro cd u k; cases cd <;> simp [tlsPrg, check])
    (by intro cd u k; cases cd <;> simp [tlsPrg, check])
    (by rw [feats, h1, h2, h3]; decide) X F
  rw [q4] at q2
  simp only [decide_eq_true_eq] at q2
  obtain ⟨rfl, q2⟩ := q2
  exact ⟨n, q1, q3 ▸ q2⟩

/-- **C72 (the `canary` test).** On every fair schedule, if the guard is not 0 and both threads' canaries equal it, the test ends, with status 203. -/
theorem C72_canary (hok : c.Ok 0 0) (h1 : c.thread = true)
    {st : Nat → State (Bool × Bool × Bool) Ca} {act : Nat → Option Action} (X : IsExec canaryPrg c sig (true, true, true) (fun _ _ => True) st act)
    (F : Fair canaryPrg c sig st act) : ∃ n, Ended (st n) 203 := by
  obtain ⟨n, v, a, q1, q2, q3, q4⟩ := checked_ends (P := fun a => (match a.status with | none => true | some st => decide (st = 203))) (n := 40) hok
    (by intro cd u k; cases cd <;> simp [canaryPrg, check])
    (by intro cd u k; cases cd <;> simp [canaryPrg, check])
    (by
      rw [feats, h1]
      generalize c.threadAtExit = y; generalize c.programAtExit = z
      revert y z
      decide) X F
  rw [q4] at q2
  simp only [decide_eq_true_eq] at q2
  subst q2
  exact ⟨n, q1⟩

/-- **C72 (the `detach` test).** On every fair schedule (without the `signal` feature: if no signal handler runs on a stack that is gone) the test ends,
with status 202. -/
theorem C72_detach (hok : c.Ok 0 0) (h1 : c.thread = true) {st : Nat → State Unit De} {act : Nat → Option Action}
    (X : IsExec detachPrg c sig () (NoLate sig) st act) (F : Fair detachPrg c sig st act) : ∃ n, Ended (st n) 202 := by
  have X' := X.orderly fun R _ hP hs => R.early_step hok (detach_early _) (.inr fun _ _ h => h) hP hs
  obtain ⟨-, ab, who, R, AF, -, hq⟩ := C71_fair_early hok (detach_proper h1) (detach_early _) X F (many_of_settles hok X' (detach_settles _))
  obtain ⟨n, v, hv⟩ := R.ranked AF (fun a => dSum a.thr)
    (fun l a a' t r x A hs => by obtain ⟨⟨w, I⟩, D⟩ := dused A; exact (D.step I hs).2)
    (fun l a A h => ⟨0, detach_goes A h⟩)
  obtain ⟨l, A⟩ := R.reachU n
  obtain ⟨⟨w, I⟩, -⟩ := dused A
  obtain rfl := I.status v hv
  exact ⟨n, ((hq n).2 _).mp hv⟩

/-- **C72 (the `thread-id` test).** On every fair schedule, whatever ids the kernel gives, the test ends, with status 201: the two threads hear of each
other, the main thread sees the child's id gone, and joins it. -/
theorem C72_thread_id (hok : c.Ok 0 0) (h1 : c.thread = true) (h2 : c.threadAtExit = true) (h3 : c.programAtExit = true)
    {st : Nat → State (Option Id) Ti} {act : Nat → Option Action} (X : IsExec idPrg c sig none (fun _ _ => True) st act)
    (F : Fair idPrg c sig st act) : ∃ n, Ended (st n) 201 := by
  have hd : NoDetach idPrg := by intro cd u k; cases cd <;> simp [idPrg, check]
  have hone : ∀ a, AReach idPrg (locks c) none a → a.thr.length ≤ 2 := fun a A => (idInv A).len
  have X' := X.orderly fun _ ih _ hs => ih.one_step hok hone (.inr hd) hs
  obtain ⟨-, ab, who, R, AF, AI, hq⟩ := C71_fair_one_thread hok (id_proper h1 h2 h3) hone (.inr hd) X F (many_of_settles hok X' (id_settles _))
  obtain ⟨n, hn⟩ := id_ends R AF AI
  exact ⟨n, ((hq n).2 _).mp hn⟩

end Origin.Programs
