import Verif.Props.Signals
import Verif.Props.FairProc
/-!
# C77, liveness: signals do not keep the process from ending
-/

namespace Origin.Proc

variable {c : Cfg} {st : Nat → SState} {act : Nat → Option SAct}

theorem IsSExec.reach (X : IsSExec c st act) (n : Nat) : SReachA c (st n) := by
  induction n with
  | zero => rw [X.start]; exact .init
  | succ n ih =>
    cases h : act n with
    | none => rw [X.idle n h]; exact ih
    | some x => exact .step ih (X.next n x h).1 (X.next n x h).2

theorem IsSExec.flat (X : IsSExec c st act) : IsExec c (flatSt st) (flatActs st act) := by
  have key : ∀ n, match flatActs st act n with
      | none => flatSt st (n + 1) = flatSt st n
      | some y => step c (flatSt st n) y = some (flatSt st (n + 1)) := by
    intro n
    unfold flatActs flatSt
    cases h : act n with
    | none => rw [X.idle n h]; rfl
    | some x => exact (((X.reach n).inv fun _ _ h => h).step (X.next n x h).1 (X.next n x h).2).2
  refine ⟨⟨fun n h => ?_, fun n x h => ?_⟩, ?_⟩
  · have := key n; rw [h] at this; exact this
  · have := key n; rw [h] at this; exact this
  · unfold flatSt; rw [X.start]; rfl

/-- **C77 (fairness).** If the scheduler is fair, and on each thread there is an end to signals and handlers return, then no code of origin's that can go on is kept from it for
ever, be it by the scheduler or by handlers. -/
theorem C77_fair (hk : ∀ n, (st n).killed = none) (F : SFair c st act) (Q : Calm st) : Fair c (flatSt st) (flatActs st act) := by
  intro t n
  obtain ⟨N, hN⟩ := Q t
  obtain ⟨m, hm, h⟩ := F t (max n N)
  have hh := hN m (Nat.le_trans (Nat.le_max_right _ _) hm)
  refine ⟨m, Nat.le_trans (Nat.le_max_left _ _) hm, ?_⟩
  rcases h with h | h
  · left
    have e : Action.tid (.step t) = t := rfl
    simp only [flatActs, h, Option.bind_some, SState.flatAct, e, hh]
  · right
    cases hs : step c (flatSt st m) (.step t) with
    | none => rfl
    | some s' =>
      exfalso
      have hd : (st m).s.dead = false := by
        cases hd : (st m).s.dead with
        | false => rfl
        | true => simp [flatSt, step, SState.flat, hd, hk m] at hs
      have e : flatSt st m = { (st m).s with stk := (st m).flat.stk } := by simp [flatSt, SState.flat, hk m]
      rw [e] at hs
      obtain ⟨l, -, h2⟩ := step_stks (s := (st m).s) (τ := (st m).s.stk) hs (by simp [SState.flat, Action.tid, hh])
      have h3 : sstep c (st m) (.act (.step t)) = (step c (st m).s (.step t)).map fun s' => { st m with s := s' } := by
        simp [sstep, hd, Action.tid, hh]
      rw [h3, show (st m).s = { (st m).s with stk := (st m).s.stk } from rfl, h2] at h
      cases h

/-- **C77 (`exit` ends the process).** Whatever signals arrive in the meantime: an `exit` call is followed by the end of the process, if no code of origin's is kept from going on for ever, none
of the functions origin calls runs for ever, `.fini_array` functions call neither `exit` nor `at_exit`, and finitely many functions are registered. -/
theorem C77_exit_ends {n m : Nat} (hok : c.Ok n m) (X : IsSExec c st act) (F : Fair c (flatSt st) (flatActs st act))
    (H : Finite Fn.handler (flatSt st) (flatActs st act)) (Q : QuietFini (flatSt st) (flatActs st act)) (M : FinitelyMany (flatSt st))
    {i : Nat} {t : Tid} {e : Exit} {v : Int} (h : .exitBegin t e v ∈ (st i).s.log) : ∃ j, i ≤ j ∧ Ended (st j).s.log :=
  C62_exit_ends hok X.flat F H Q M (st := flatSt st) (i := i) h

/-- **C77 (`origin_main`'s return ends the process).** -/
theorem C77_main_return_ends {n m : Nat} (hok : c.Ok n m) (X : IsSExec c st act) (F : Fair c (flatSt st) (flatActs st act))
    (H : Finite Fn.handler (flatSt st) (flatActs st act)) (Q : QuietFini (flatSt st) (flatActs st act)) (M : FinitelyMany (flatSt st))
    {i : Nat} {v : Int} (h : .mainRet v ∈ (st i).s.log) : ∃ j, i ≤ j ∧ Ended (st j).s.log :=
  C62_main_return_ends hok X.flat F H Q M (st := flatSt st) (i := i) h

/-- **C77 (`origin_main` is called).** -/
theorem C77_main_called {n m : Nat} (hok : c.Ok n m) (X : IsSExec c st act) (F : Fair c (flatSt st) (flatActs st act))
    (H : Finite Fn.handler (flatSt st) (flatActs st act)) (Q : QuietFini (flatSt st) (flatActs st act)) (M : FinitelyMany (flatSt st)) :
    ∃ j, .main c.args ∈ (st j).s.log ∨ Ended (st j).s.log :=
  C62_main_called hok X.flat F H Q M (st := flatSt st)

/-- **C77 (threads finish).** -/
theorem C77_thread_finishes {n m : Nat} (hok : c.Ok n m) (X : IsSExec c st act) (F : Fair c (flatSt st) (flatActs st act))
    (H : Finite Fn.handler (flatSt st) (flatActs st act)) (Q : QuietFini (flatSt st) (flatActs st act)) (M : FinitelyMany (flatSt st))
    {i : Nat} {t : Tid} {v : Int} (hr : Running (st i).s t .start) (hh : (st i).hnd t = []) (ha : act i = some (.act (.ret t v))) :
    ∃ j, i ≤ j ∧ (.released t ∈ (st j).s.log ∨ Ended (st j).s.log) := by
  obtain ⟨rest, hr⟩ := hr
  refine C62_thread_finishes hok X.flat F H Q M (st := flatSt st) (i := i) (t := t) (v := v) ⟨rest, ?_⟩ ?_
  · simp [flatSt, SState.flat, hh, hr]
  · simp [flatActs, ha, SState.flatAct, Action.tid, hh]

/-! ## A concrete execution -/

/-- The state after `n` actions of a list that may end. -/
def sstAt (c : Cfg) (xs : List SAct) (n : Nat) : SState := (srunA c sinit (xs.take n)).getD sinit

theorem srun_append (xs ys : List SAct) : ∀ g, srunA c g (xs ++ ys) = (srunA c g xs).bind (srunA c · ys) := by
  induction xs with
  | nil => intro g; rfl
  | cons x xs ih =>
    intro g
    simp only [List.cons_append, srunA]
    split
    · cases sstep c g x with
      | none => rfl
      | some g1 => exact ih g1
    · rfl

theorem srun_take {xs : List SAct} (h : (srunA c sinit xs).isSome = true) (n : Nat) : srunA c sinit (xs.take n) = some (sstAt c xs n) := by
  have h' := h
  rw [← List.take_append_drop n xs, srun_append] at h'
  cases hs : srunA c sinit (xs.take n) with
  | none => rw [hs] at h'; cases h'
  | some g => simp [sstAt, hs]

theorem sexec_of {xs : List SAct} (h : (srunA c sinit xs).isSome = true) : IsSExec c (sstAt c xs) (xs[·]?) := by
  refine ⟨rfl, fun n hn => ?_, fun n x hx => ?_⟩
  · have hle : xs.length ≤ n := by simpa using hn
    simp only [sstAt]
    rw [List.take_of_length_le hle, List.take_of_length_le (by omega)]
  · have h1 := srun_take h n
    have h2 := srun_take h (n + 1)
    rw [List.take_add_one, hx, Option.toList_some, srun_append, h1] at h2
    simp only [Option.bind_some, srunA] at h2
    split at h2
    · next ha =>
      refine ⟨allowed_sound ha, ?_⟩
      cases hs : sstep c (sstAt c xs n) x with
      | none => rw [hs] at h2; cases h2
      | some g1 => rw [hs] at h2; exact h2
    · cases h2

/-- `sigRun` (handlers on top of `at_exit`, of `origin_main`, of one another), a signal while `exit` holds the lock, and then the rest. -/
def sigRunEnd : List SAct :=
  sigRun ++ [.act (.step 0), .act (.step 0), .signal 0, .act (.ret 0 0)] ++
    ((steps 0 3 ++ [Action.ret 0 0] ++ steps 0 4 ++ [Action.ret 0 0] ++ steps 0 3 ++ [Action.ret 0 0, .step 0, .ret 0 0] ++ steps 0 2).map .act)

theorem sstAt_last {xs : List SAct} {n : Nat} (hn : xs.length ≤ n) : sstAt c xs n = (srunA c sinit xs).getD sinit := by
  simp only [sstAt]; rw [List.take_of_length_le hn]

/-- The hypotheses of all the theorems are met. -/
example : IsSExec demo (sstAt demo sigRunEnd) (sigRunEnd[·]?) ∧ SFair demo (sstAt demo sigRunEnd) (sigRunEnd[·]?) ∧ Calm (sstAt demo sigRunEnd) ∧
    (∀ n, (sstAt demo sigRunEnd n).killed = none) ∧
    Finite Fn.handler (flatSt (sstAt demo sigRunEnd)) (flatActs (sstAt demo sigRunEnd) (sigRunEnd[·]?)) ∧
    QuietFini (flatSt (sstAt demo sigRunEnd)) (flatActs (sstAt demo sigRunEnd) (sigRunEnd[·]?)) ∧ FinitelyMany (flatSt (sstAt demo sigRunEnd)) ∧
    .mainRet 7 ∈ (sstAt demo sigRunEnd sigRunEnd.length).s.log := by
  have hs : (srunA demo sinit sigRunEnd).isSome = true := by decide
  have hd : ((srunA demo sinit sigRunEnd).getD sinit).s.dead = true := by decide
  have hk : ((srunA demo sinit sigRunEnd).getD sinit).killed = none := by decide
  have X := sexec_of hs
  have hkn : ∀ n, (sstAt demo sigRunEnd n).killed = none := by
    intro n
    by_cases hn : n < sigRunEnd.length
    · have : ∀ n : Fin sigRunEnd.length, (sstAt demo sigRunEnd n).killed = none := by decide
      exact this ⟨n, hn⟩
    · rw [sstAt_last (by omega)]; exact hk
  have hfd : ∀ n, (flatSt (sstAt demo sigRunEnd) (max n sigRunEnd.length)).dead = true := by
    intro n
    simp only [flatSt, SState.flat]
    rw [sstAt_last (Nat.le_max_right _ _), hd, hk]; rfl
  refine ⟨X, fun t n => ⟨max n sigRunEnd.length, Nat.le_max_left _ _, .inr ?_⟩, ?_, hkn,
    fun n t fn _ _ => ⟨max n sigRunEnd.length, Nat.le_max_left _ _, .inl (hfd n)⟩, ?_, ?_, ?_⟩
  · simp only [sstep]
    rw [sstAt_last (Nat.le_max_right _ _), hd]; rfl
  · intro t
    refine ⟨sigRunEnd.length, fun m hm => ?_⟩
    by_cases ht : t = 0
    · subst ht; rw [sstAt_last hm]; decide
    · have I := ((X.reach m).inv fun _ _ h => h)
      refine (I.new ?_).1
      rw [sstAt_last hm, show ((srunA demo sinit sigRunEnd).getD sinit).s.nextT = 1 by decide]
      exact Nat.one_le_iff_ne_zero.mpr ht
  · intro n t p hr
    have chk : ∀ n : Fin sigRunEnd.length, (match flatActs (sstAt demo sigRunEnd) (sigRunEnd[·]?) n with
        | some (.exit t _) | some (.regProg t) => match (flatSt (sstAt demo sigRunEnd) n).stk t with
            | .user (.fini _) :: _ => false
            | _ => true
        | _ => true) = true := by decide
    by_cases hn : n < sigRunEnd.length
    · have h := chk ⟨n, hn⟩
      obtain ⟨rest, hr⟩ := hr
      refine ⟨fun v hv => ?_, fun hv => ?_⟩ <;> (simp [hv, hr] at h)
    · have : sigRunEnd[n]? = none := by simpa using hn
      simp [flatActs, this]
  · refine ⟨((srunA demo sinit sigRunEnd).getD sinit).s.nextF, fun n f hf => ?_⟩
    have hf' : Regd (flatSt (sstAt demo sigRunEnd) (max n sigRunEnd.length)).log f := by
      rcases hf with ⟨t, ht⟩ | ⟨t, ht⟩
      · exact .inl ⟨t, X.flat.toSteps.log_stays (Nat.le_max_left _ _) ht⟩
      · exact .inr ⟨t, X.flat.toSteps.log_stays (Nat.le_max_left _ _) ht⟩
    have R := X.flat.reach (max n sigRunEnd.length)
    have e : (flatSt (sstAt demo sigRunEnd) (max n sigRunEnd.length)).nextF = ((srunA demo sinit sigRunEnd).getD sinit).s.nextF := by
      simp only [flatSt, SState.flat]; rw [sstAt_last (Nat.le_max_right _ _)]
    rw [← e]
    rcases hf' with hf' | ⟨t, ht⟩
    · exact R.pinv.fresh f hf'
    · exact R.tinv.fresh t f ht
  · rw [sstAt_last (Nat.le_refl _)]; decide

end Origin.Proc
