import Verif.Proof.ForkJoin
import Verif.Props.FairUser2
set_option linter.unusedSimpArgs false
/-!
# C74: fork and join

A program that creates any number of threads, which compute each on its own memory, and joins them all gets, in every schedule, the results the
computations have when made one after another; on every fair schedule it ends.
-/

namespace Origin.ForkJoin
open User

variable {S : Type} {J : Job S} {c : Proc.Cfg} {sig : Bool}

/-- The results of all: each cell has the result of its thread's steps and of the step its `at_exit` function made, and the values joined are the
values returned, in order. -/
def AllDone (J : Job S) (m : Mem S) : Prop :=
  (∀ i, i < J.n → m.cell i = J.last i (J.result i)) ∧ m.res = (List.range J.n).map fun i => J.val i (J.result i)

theorem FInv.allDone {l : List Nat} {a : Abs (Mem S) Pt} {M : AThr Pt} {ws : List (AThr Pt)} (I : FInv J l a M ws) {v : Int} (hv : a.status = some v) :
    v = 0 ∧ AllDone J a.mem := by
  obtain ⟨h0, hp⟩ := I.status v hv
  refine ⟨h0, ?_⟩
  have hm := I.main
  rw [hp] at hm
  generalize a.closed = b at hm
  cases hm with
  | fin h1 h2 h3 h4 =>
    refine ⟨fun i hi => ?_, h3⟩
    have hW : ws[i]? = some ws[i] := List.getElem?_eq_getElem (by omega)
    have := h2 i _ hW
    have hw := I.others i _ hW
    generalize ws[i] = W at this hw
    cases hw <;> simp_all [Over]

theorem noDetach : NoDetach (prg J) := by
  intro cd u k
  rcases cd with us | ⟨_ | _, _⟩ | _ | _ | _ | _ | _ | _ <;> simp only [prg] <;> try simp
  split <;> simp

/-- **C74.** In every schedule: when the program ends, its status is 0 and all results are there.  It never crashes. -/
theorem C74_fork_join (hok : c.Ok 0 0) {e : State (Mem S) Pt} (R : Reach (prg J) c sig J.mem0 (fun _ _ => True) e) :
    ¬ Crashed e ∧ ∀ st, Ended e st → st = 0 ∧ AllDone J e.mem := by
  obtain ⟨h1, a, ⟨_, A⟩, h3, h4⟩ := C69_refines_early_joins hok (early _) noDetach R
  obtain ⟨l, A⟩ := A.reach.used
  obtain ⟨M, ws, I⟩ := finv A
  exact ⟨h1, fun st hst => h3 ▸ I.allDone ((h4 st).mpr hst)⟩

/-- **C74 (it ends).** On every fair schedule the program ends, with status 0 and all results there. -/
theorem C74_ends (hok : c.Ok 0 0) (h1 : c.thread = true) (h2 : c.threadAtExit = true) {st : Nat → State (Mem S) Pt} {act : Nat → Option Action}
    (X : IsExec (prg J) c sig J.mem0 (fun _ _ => True) st act) (F : Fair (prg J) c sig st act) : ∃ n, Ended (st n) 0 ∧ AllDone J (st n).mem := by
  have X' := X.orderly fun R _ hP hs => R.early_step hok (early _) (.inl noDetach) hP hs
  have hset : Settles (prg J) (locks c) J.mem0 := settles_ranked (rank J) fun l a a' t r x A hs => rank_step A hs
  obtain ⟨-, ab, who, R, AF, -, hq⟩ := C71_fair_early_joins hok (proper h1 h2) (early _) noDetach X F (many_of_settles hok X' hset)
  obtain ⟨n, v, hv⟩ := R.ranked AF (rank J) (fun l a a' t r x A hs => rank_step A hs) (fun l a A h => goes A h)
  obtain ⟨l, A⟩ := R.reachU n
  obtain ⟨M, ws, I⟩ := finv A
  obtain ⟨rfl, h⟩ := I.allDone hv
  exact ⟨n, ((hq n).2 _).mp hv, (hq n).1 ▸ h⟩

/-! ## The hypotheses are met -/

/-- Two threads, starting with 0 and 1: each adds 10, doubles, returns the number plus its own, and adds 1 at its end. -/
def two : Job Nat := ⟨2, fun i => i, fun _ => [(· + 10), (· * 2)], fun i x => x + i, fun _ x => x + 1⟩

open Programs (rl wk) in
/-- A complete run of the program. -/
def twoRun : List Action :=
  [ps 0, ps 0, us 0 300 3, us 0 400 4, us 0, us 0, st 0, st 0, st 1, us 1, us 1, us 1, us 1, us 1, ps 1, us 1, us 1, rl 1, st 1, st 1,
  st 1, st 1, wk 1 0, st 0, st 0, st 0, st 0, us 0, st 0, st 0, st 2, us 2, us 2, us 2, us 2, us 2, ps 2, us 2, us 2, rl 2,
  st 2, st 2, st 2, st 2, wk 2 0, st 0, st 0, st 0, st 0, us 0, us 0, ps 0, ps 0, ps 0, ps 0, ps 0]

example : ∃ e, Reach (prg two) plain false two.mem0 (fun _ _ => True) e ∧ Ended e 0 ∧
    decide (e.mem.res = [20, 23] ∧ e.mem.cell 0 = 21 ∧ e.mem.cell 1 = 23) = true :=
  ends_run (a := 100) (tid := 1) (by decide) twoRun
    (fun e : State (Mem Nat) Pt => decide (e.mem.res = [20, 23] ∧ e.mem.cell 0 = 21 ∧ e.mem.cell 1 = 23)) (by decide)

example : AllDone two ⟨fun i => if i = 0 then 21 else 23, [20, 23]⟩ := by
  refine ⟨fun i hi => ?_, by decide⟩
  have : i = 0 ∨ i = 1 := by simp [two] at hi; omega
  rcases this with rfl | rfl <;> rfl

/-- A fair schedule. -/
example : ∃ st act, IsExec (prg two) plain false two.mem0 (fun _ _ => True) st act ∧ Fair (prg two) plain false st act ∧
    Proc.FinitelyMany (fun n => (st n).w.p) ∧ ∃ n, Ended (st n) 0 :=
  schedule (a := 100) (tid := 1) (by decide) (fun _ _ => trivial) (xs := twoRun) (by decide)

end Origin.ForkJoin
