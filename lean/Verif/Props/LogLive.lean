import Verif.Proof.LogLive3
/-! # C68: with a logger too, what origin starts it finishes -/

namespace Origin.LogProc

open Proc (Cfg Fn Tid FnId Exit Ev Action Ended demo)

variable {c : Cfg} {s s' : State} {st : Nat → State} {act : Nat → Option Action} {k : Nat → Tid → List Proc.Frame} {xs : Nat → List Action}

theorem ended_plain {l : List LEv} : Ended (plain c l) ↔ Ended (real l) := by
  unfold Ended
  refine exists_congr fun t => exists_congr fun e => exists_congr fun v => ?_
  rw [mem_plain (by rfl), mem_real]

theorem Sim.ended {k : Tid → List Proc.Frame} (S : Sim c s k) : s.dead = true ↔ Ended (real s.log) := by
  rw [← ended_plain (c := c)]
  exact S.reach.ended

theorem llog_step {x : Action} (h : step c s x = some s') {y : LEv} (hy : y ∈ s.log) : y ∈ s'.log := by
  unfold step at h
  split at h
  · cases h
  · split at h
    · cases h
    · next fr rest hs =>
      split at h
      · cases x <;> simp only [userStep, Action.tid] at h <;> (repeat' split at h) <;> (try cases h) <;>
          simp [State.ev, State.setStk, State.setTd, State.beginExit, State.trace, hy]
      · split at h
        · generalize x.tid = u at *
          cases fr <;> simp only [frameStep] at h <;> (repeat' split at h) <;> (try cases h) <;> (try rw [Option.map_eq_some_iff] at h) <;>
            (try (obtain ⟨s1, h1, h2⟩ := h; subst h2)) <;>
            simp [State.ev, State.setStk, State.setTd, State.beginExit, State.trace, hy, lrel_fields] <;> (try simp [lacq_fields h1, hy])
        · cases h

theorem IsLExec.log_stays (X : IsLExec c st act) {n m : Nat} (hm : n ≤ m) {y : LEv} (h : y ∈ (st n).log) : y ∈ (st m).log := by
  induction hm with
  | refl => exact h
  | @step m _ ih =>
    cases ha : act m with
    | none => rw [X.idle m ha]; exact ih
    | some x => exact llog_step (X.next m x ha).2 ih

theorem IsLExec.ended_stays (X : IsLExec c st act) {n m : Nat} (hm : n ≤ m) (h : Ended (real (st n).log)) : Ended (real (st m).log) := by
  obtain ⟨t, e, v, h⟩ := h
  exact ⟨t, e, v, mem_real.mpr (X.log_stays hm (mem_real.mp h))⟩

/-- The moment at which something was added to the history. -/
theorem IsLExec.moment (X : IsLExec c st act) {n : Nat} {y : LEv} (h : y ∈ (st n).log) :
    ∃ m x, m < n ∧ act m = some x ∧ y ∉ (st m).log ∧ y ∈ (st (m + 1)).log := by
  induction n with
  | zero => rw [X.start] at h; cases h
  | succ n ih =>
    by_cases h0 : y ∈ (st n).log
    · obtain ⟨m, x, h1, h2⟩ := ih h0
      exact ⟨m, x, by omega, h2⟩
    · cases ha : act n with
      | none => rw [X.idle n ha] at h; exact absurd h h0
      | some x => exact ⟨n, x, by omega, ha, h0, h⟩

/-- From a time of the execution without messages to one with. -/
theorem Lift.back (L : Lift c st act k xs) {i j : Nat} {y : Ev} (h : y ∈ (PS c st k xs j).log) : ∃ m, i ≤ m ∧ y ∈ plain c (st m).log := by
  have E := L.exec
  refine ⟨max i j, Nat.le_max_left _ _, ?_⟩
  have := E.toSteps.log_stays (m := 2 * max i j) (by have := Nat.le_max_right i j; omega) h
  rw [PS_even] at this
  exact this

theorem Lift.back_ended (L : Lift c st act k xs) {i j : Nat} (h : Ended (PS c st k xs j).log) : ∃ m, i ≤ m ∧ Ended (real (st m).log) := by
  obtain ⟨t, e, v, h⟩ := h
  obtain ⟨m, hm, h⟩ := L.back (i := i) h
  exact ⟨m, hm, t, e, v, mem_real.mpr ((mem_plain (by rfl)).mp h)⟩

theorem Lift.forth (L : Lift c st act k xs) {i : Nat} {y : Ev} (hy : announced y = false) (h : .ev y ∈ (st i).log) : y ∈ (PS c st k xs (2 * i)).log := by
  rw [PS_even]
  exact (mem_plain hy).mpr h

/-- **C68 (`exit` ends the process).** On every fair schedule, if the logger returns whenever it is called (whatever it does in between, other than what `Quiet` rules out), the program registers
finitely many functions, none of the functions origin calls runs for ever, and `.fini_array` functions and the logger called by or for them call neither `exit` nor `program::at_exit`: once any thread has
called `exit`, the process ends. -/
theorem C68_exit_ends_partial {n m : Nat} (hok : c.Ok n m) (X : IsLExec c st act) (B : Behaves c st act) {i : Nat} {t : Tid} {e : Exit} {v : Int}
    (h : .ev (.exitBegin t e v) ∈ (st i).log) : ∃ j, i ≤ j ∧ Ended (real (st j).log) := by
  obtain ⟨k, xs, L⟩ := X.lift
  obtain ⟨j, -, h1⟩ := Proc.C62_exit_ends hok L.exec (L.fair X B.fair B.logger) (L.finite X B.fair B.logger B.finite) (L.quiet X B.quiet) (L.finitelyMany B.many) (L.forth rfl h)
  exact L.back_ended h1

/-- **C68 (with its own status).** If moreover that is the only call of `exit` or `immediate_exit` there ever is, the process ends with its status. -/
theorem C68_exit_status_partial {n m : Nat} (hok : c.Ok n m) (X : IsLExec c st act) (B : Behaves c st act) {i : Nat} {t : Tid} {e : Exit} {v : Int}
    (h : .ev (.exitBegin t e v) ∈ (st i).log)
    (hu : ∀ j t' e' v', .ev (.exitBegin t' e' v') ∈ (st j).log ∨ .ev (.immBegin t' e' v') ∈ (st j).log → e' = e) :
    ∃ j, i ≤ j ∧ .ev (.group t e v) ∈ (st j).log := by
  obtain ⟨k, xs, L⟩ := X.lift
  obtain ⟨j, -, h1⟩ := Proc.C62_exit_status hok L.exec (L.fair X B.fair B.logger) (L.finite X B.fair B.logger B.finite) (L.quiet X B.quiet) (L.finitelyMany B.many) (L.forth rfl h)
    (fun j t' e' v' h => by
      rcases h with h | h
      · obtain ⟨m, -, h⟩ := L.back (i := 0) h
        exact hu m t' e' v' (.inl ((mem_plain (by rfl)).mp h))
      · obtain ⟨m, -, h⟩ := L.back (i := 0) h
        exact hu m t' e' v' (.inr ((mem_plain (by rfl)).mp h)))
  obtain ⟨m, hm, h⟩ := L.back (i := i) h1
  exact ⟨m, hm, (mem_plain (by rfl)).mp h⟩

/-- The logger returns. -/
theorem Lift.logged (X : IsLExec c st act) (G : LoggerReturns st act) {n : Nat} {t : Tid} {m : Msg} {r : List Frame} (h : (st n).stk t = .logger m :: r) :
    ∃ j, n ≤ j ∧ ((st j).dead = true ∨ (st j).stk t = r) := by
  obtain ⟨j, hj, h1 | ⟨⟨v, h1⟩, h2⟩⟩ := G n t m r h
  · exact ⟨j, hj, .inl h1⟩
  · have h4 := lstep_user (X.next j _ h1).2 h2 rfl
    simp only [userStep, Option.some.injEq] at h4
    exact ⟨j + 1, by omega, .inr (by rw [← h4]; simp [State.setStk, Action.tid])⟩

/-- **C68 (`immediate_exit` ends the process).** On every fair schedule, if the logger returns. -/
theorem C68_immediate_ends_partial (X : IsLExec c st act) (F : LFair c st act) (G : LoggerReturns st act) {i : Nat} {t : Tid} {v : Int}
    (h : act i = some (.immExit t v)) : ∃ j, i ≤ j ∧ Ended (real (st j).log) := by
  obtain ⟨k, xs, L⟩ := X.lift
  have hs := (X.next i _ h).2
  cases hl : (st i).stk t with
  | nil => simp [step, lstep_live hs, Action.tid, hl] at hs
  | cons top r =>
    cases hu : top.users with
    | false => have := (lstep_own hs hl hu).1; cases this
    | true =>
      have h1 := lstep_user hs hl hu
      simp only [userStep, Option.some.injEq] at h1
      obtain ⟨j, hj, h2⟩ := Lift.logged X G (n := i + 1) (t := t) (m := .exiting none v) (r := .immGrp v :: top :: r) (by rw [← h1]; simp [State.trace, State.setStk, Action.tid])
      rcases h2 with h2 | h2
      · exact ⟨j, by omega, (L.sim j).ended.mp h2⟩
      · obtain ⟨m, hm, h3 | ⟨-, -, h3⟩⟩ := L.goes_on X F h2 rfl (by simp) (by simp)
        · exact ⟨m, by omega, (L.sim m).ended.mp h3⟩
        · simp only [frameStep, Option.some.injEq] at h3
          exact ⟨m + 1, by omega, (L.sim (m + 1)).ended.mp (by rw [← h3]; rfl)⟩

/-- **C68 (`origin_main`'s return ends the process).** Under the same assumptions. -/
theorem C68_main_return_ends_partial {n m : Nat} (hok : c.Ok n m) (X : IsLExec c st act) (B : Behaves c st act) {i : Nat} {t : Tid} {v : Int} {r : List Frame}
    (hr : (st i).stk t = .user .main :: r) (h : act i = some (.ret t v)) : ∃ j, i ≤ j ∧ Ended (real (st j).log) := by
  obtain ⟨k, xs, L⟩ := X.lift
  have h1 := lstep_user (X.next i _ h).2 hr rfl
  simp only [userStep, Option.some.injEq] at h1
  obtain ⟨j, hj, h2 | h2⟩ := Lift.logged X B.logger (n := i + 1) (t := t) (m := .mainRet v) (r := .mainDone v :: r) (by rw [← h1]; simp [State.trace, State.setStk, Action.tid])
  · exact ⟨j, by omega, (L.sim j).ended.mp h2⟩
  · obtain ⟨m, hm, h3 | ⟨-, -, h3⟩⟩ := L.goes_on X B.fair h2 rfl (by simp) (by simp)
    · exact ⟨m, by omega, (L.sim m).ended.mp h3⟩
    · simp only [frameStep, Option.some.injEq] at h3
      obtain ⟨j', hj', h4⟩ := C68_exit_ends_partial hok X B (i := m + 1) (t := t) (e := (st m).nextE) (v := v) (by rw [← h3]; simp [State.beginExit, State.ev])
      exact ⟨j', by omega, h4⟩

/-- **C68 (threads finish).** Under the same assumptions, a thread whose function has returned runs its `at_exit` functions to the end and is gone, unless the process ends first. -/
theorem C68_thread_finishes_partial {n m : Nat} (hok : c.Ok n m) (X : IsLExec c st act) (B : Behaves c st act) {i : Nat} {t : Tid} {v : Int} {r : List Frame}
    (hr : (st i).stk t = .user .start :: r) (h : act i = some (.ret t v)) : ∃ j, i ≤ j ∧ (.ev (.released t) ∈ (st j).log ∨ Ended (real (st j).log)) := by
  obtain ⟨k, xs, L⟩ := X.lift
  have hlive := lstep_live (X.next i _ h).2
  obtain rfl : r = [] := by
    have T := (L.sim i).top hlive t
    rw [hr] at T
    rcases T with ⟨h, -⟩ | ⟨-, h⟩
    · cases h
    · generalize k i t = P at h
      cases h with
      | user _ h1 _ _ => exact h1 rfl
  have dead : ∀ j, i ≤ j → (st j).dead = true → ∃ j, i ≤ j ∧ (.ev (.released t) ∈ (st j).log ∨ Ended (real (st j).log)) :=
    fun j hj hd => ⟨j, hj, .inr ((L.sim j).ended.mp hd)⟩
  have h1 := lstep_user (X.next i _ h).2 hr rfl
  simp only [userStep, Option.some.injEq] at h1
  obtain ⟨j, hj, h2 | h2⟩ := Lift.logged X B.logger (n := i + 1) (t := t) (m := .returned) (r := [.startDone]) (by rw [← h1]; simp [State.trace, State.setStk, Action.tid])
  · exact dead j (by omega) h2
  obtain ⟨m1, hm1, h3 | ⟨-, -, h3⟩⟩ := L.goes_on X B.fair h2 rfl (by simp) (by simp)
  · exact dead m1 (by omega) h3
  simp only [frameStep, Option.some.injEq] at h3
  have h4 : (st (m1 + 1)).stk t = [.thrLoop] := by rw [← h3]; simp [State.setStk]
  obtain ⟨m2, hm2, h5 | ⟨h5, h6, h7⟩⟩ := L.goes_on X B.fair h4 rfl (by simp) (by simp)
  · exact dead m2 (by omega) h5
  have hd2 := lstep_live (X.next m2 _ h5).2
  simp only [frameStep] at h7
  split at h7
  · next f fs h8 h9 =>
    simp only [Option.some.injEq] at h7
    have hk : k (m2 + 1) t = [.user (.tdtor f), .thrLoop] := by
      have hd3 : (st (m2 + 1)).dead = false := by rw [← h7]; exact hd2
      have T := (L.sim (m2 + 1)).top hd3 t
      rw [← h7] at T
      simp only [State.trace, State.setStk, if_true] at T
      rcases T with ⟨hP, -⟩ | ⟨-, hA⟩
      · cases hP
      · generalize k (m2 + 1) t = P at hA
        cases hA with
        | logger _ hA => cases hA with | callT _ _ hA => cases hA; rfl
    obtain ⟨j', -, h10⟩ := Proc.busy_ends hok L.exec.run (L.fair X B.fair B.logger) (L.finite X B.fair B.logger B.finite) (L.quiet X B.quiet) (L.finitelyMany B.many)
      (i := 2 * (m2 + 1)) (k := .thr) (t := t) (by rw [PS_even]; show Proc.Busy c .thr (k (m2 + 1) t) _; rw [hk]; exact .user _ _ _ _ (.thr f rfl))
    rcases h10 with h10 | h10
    · obtain ⟨m3, hm3, h11⟩ := L.back_ended (i := i) ((L.exec.reach j').ended.mp h10)
      exact ⟨m3, hm3, .inr h11⟩
    · obtain ⟨m3, hm3, h11⟩ := L.back (i := i) h10
      exact ⟨m3, hm3, .inl ((mem_plain (by rfl)).mp h11)⟩
  · simp only [Option.some.injEq] at h7
    obtain ⟨j2, hj2, h8 | h8⟩ := Lift.logged X B.logger (n := m2 + 1) (t := t) (m := .gone) (r := [.thrGone]) (by rw [← h7]; simp [State.trace, State.setStk])
    · exact dead j2 (by omega) h8
    obtain ⟨m3, hm3, h9 | ⟨-, -, h9⟩⟩ := L.goes_on X B.fair h8 rfl (by simp) (by simp)
    · exact dead m3 (by omega) h9
    simp only [frameStep, Option.some.injEq] at h9
    exact ⟨m3 + 1, by omega, .inl (by rw [← h9]; simp [State.ev])⟩

/-- The message before `origin_main`. -/
theorem main_announced {t : Tid} {x : Action} (h : step c s x = some s') (h0 : .msg t .main ∉ s.log) (h1 : .msg t .main ∈ s'.log) : ∃ r, s'.stk t = .logger .main :: .callMain :: r := by
  unfold step at h
  split at h
  · cases h
  · split at h
    · cases h
    · next fr rest hs =>
      split at h
      · cases x <;> simp only [userStep, Action.tid] at h <;> (repeat' split at h) <;> (try cases h) <;>
          (simp [State.ev, State.setStk, State.setTd, State.beginExit, State.trace] at h1; exact absurd h1 h0)
      · split at h
        · generalize x.tid = u at *
          cases fr <;> simp only [frameStep] at h <;> (repeat' split at h) <;> (try cases h) <;> (try rw [Option.map_eq_some_iff] at h) <;>
            (try (obtain ⟨s1, h2, h3⟩ := h; subst h3)) <;>
            first
              | (simp [State.ev, State.setStk, State.setTd, State.beginExit, State.trace, lrel_fields] at h1; exact absurd h1 h0)
              | (simp [State.setStk, lacq_fields h2] at h1; exact absurd h1 h0)
              | (simp only [State.trace, List.mem_cons, LEv.msg.injEq] at h1
                 rcases h1 with ⟨h1, -⟩ | h1
                 · subst h1; exact ⟨rest, by simp [State.trace, State.setStk]⟩
                 · exact absurd h1 h0)
        · cases h

/-- **C68 (startup reaches `origin_main`).** Under the same assumptions, `origin_main` is called, unless the process ends first. -/
theorem C68_main_called_partial {n m : Nat} (hok : c.Ok n m) (X : IsLExec c st act) (B : Behaves c st act) : ∃ j, .ev (.main c.args) ∈ (st j).log ∨ Ended (real (st j).log) := by
  obtain ⟨k, xs, L⟩ := X.lift
  obtain ⟨j, h | h⟩ := Proc.C62_main_called hok L.exec (L.fair X B.fair B.logger) (L.finite X B.fair B.logger B.finite) (L.quiet X B.quiet) (L.finitelyMany B.many)
  · obtain ⟨m, -, h⟩ := L.back (i := 0) h
    obtain ⟨t, msg, h1, h2⟩ := (mem_plain_ann (by rfl)).mp h
    obtain rfl : msg = .main := by cases msg <;> simp [Msg.announces] at h2 ⊢
    obtain ⟨j, x, -, h3, h4, h5⟩ := X.moment h1
    obtain ⟨r, h6⟩ := main_announced (X.next j x h3).2 h4 h5
    obtain ⟨j2, hj2, h7 | h7⟩ := Lift.logged X B.logger h6
    · exact ⟨j2, .inr ((L.sim j2).ended.mp h7)⟩
    obtain ⟨m3, hm3, h9 | ⟨-, -, h9⟩⟩ := L.goes_on X B.fair h7 rfl (by simp) (by simp)
    · exact ⟨m3, .inr ((L.sim m3).ended.mp h9)⟩
    simp only [frameStep, Option.some.injEq] at h9
    exact ⟨m3 + 1, .inl (by rw [← h9]; simp [State.ev])⟩
  · obtain ⟨m, -, h⟩ := L.back_ended (i := 0) h
    exact ⟨m, .inr h⟩

/-! ### A concrete infinite execution: a list of actions, then rest -/

/-- The state after the first `n` of the actions. -/
def lstAt (c : Cfg) (xs : List Action) (n : Nat) : State := (runQ c init (xs.take n)).getD init

theorem runQ_append : ∀ (ys : List Action) (zs : List Action) {s s1 : State}, runQ c s ys = some s1 → runQ c s (ys ++ zs) = runQ c s1 zs := by
  intro ys zs
  induction ys with
  | nil => intro s s1 h; simp only [runQ, Option.some.injEq] at h; rw [h]; rfl
  | cons y ys ih =>
    intro s s1 h
    simp only [List.cons_append, runQ] at h ⊢
    split at h
    · rw [Option.bind_eq_some_iff] at h
      obtain ⟨d, h1, h2⟩ := h
      rename_i hq
      rw [if_pos hq, h1, Option.bind_some]
      exact ih h2
    · cases h

theorem runQ_take {xs : List Action} (h : (runQ c init xs).isSome = true) (n : Nat) : runQ c init (xs.take n) = some (lstAt c xs n) := by
  have : ∀ (s : State) (ys zs : List Action), (runQ c s (ys ++ zs)).isSome = true → (runQ c s ys).isSome = true := by
    intro s ys zs
    induction ys generalizing s with
    | nil => intro _; rfl
    | cons y ys ih =>
      intro h
      simp only [List.cons_append, runQ] at h ⊢
      split at h
      · next hq =>
        rw [if_pos hq]
        cases hs : step c s y with
        | none => rw [hs] at h; cases h
        | some s1 => rw [hs] at h; exact ih s1 h
      · cases h
  have := this init (xs.take n) (xs.drop n) (by rw [List.take_append_drop]; exact h)
  obtain ⟨s, hs⟩ := Option.isSome_iff_exists.mp this
  simp [lstAt, hs]

theorem lexec_of {xs : List Action} (h : (runQ c init xs).isSome = true) : IsLExec c (lstAt c xs) (xs[·]?) := by
  refine ⟨rfl, fun n hn => ?_, fun n x hx => ?_⟩
  · have hle : xs.length ≤ n := by simpa using hn
    simp only [lstAt]
    rw [List.take_of_length_le hle, List.take_of_length_le (by omega)]
  · have h1 := runQ_take h n
    have h2 := runQ_take h (n + 1)
    rw [List.take_add_one, hx, Option.toList_some, runQ_append _ _ h1] at h2
    simp only [runQ] at h2
    split at h2
    · next hq =>
      refine ⟨quiet_iff hq, ?_⟩
      cases hs : step c (lstAt c xs n) x with
      | none => rw [hs] at h2; cases h2
      | some s1 => rw [hs] at h2; exact h2
    · cases h2

theorem lstAt_last {xs : List Action} {n : Nat} (hn : xs.length ≤ n) : lstAt c xs n = (runQ c init xs).getD init := by
  simp only [lstAt]; rw [List.take_of_length_le hn]

theorem ldead_none (hd : s.dead = true) (x : Action) : step c s x = none := by simp [step, hd]

/-- The function a `tReg` or `pReg` event registers. -/
def regOf : LEv → Option FnId
  | .ev (.tReg _ f) | .ev (.pReg _ f) => some f
  | _ => none

/-- The history of `demoRun` as an infinite execution: two threads, functions for threads and the program, and a logger that registers some itself.  All hypotheses are met: those of the theorem on
`exit`, the one on `origin_main`'s return, and the one on threads. -/
example : IsLExec demo (lstAt demo demoRun) (demoRun[·]?) ∧ Behaves demo (lstAt demo demoRun) (demoRun[·]?) ∧
    .ev (.exitBegin 0 0 7) ∈ (lstAt demo demoRun demoRun.length).log ∧ .ev (.group 0 0 7) ∈ (lstAt demo demoRun demoRun.length).log ∧
    (∃ i, (lstAt demo demoRun i).stk 0 = [.user .main] ∧ demoRun[i]? = some (.ret 0 7)) ∧
    (∃ i, (lstAt demo demoRun i).stk 1 = [.user .start] ∧ demoRun[i]? = some (.ret 1 0)) := by
  have hs : (runQ demo init demoRun).isSome = true := by decide
  have hd : ((runQ demo init demoRun).getD init).dead = true := by decide
  have X := lexec_of hs
  have hd' : ∀ n, (lstAt demo demoRun (max n demoRun.length)).dead = true := fun n => by rw [lstAt_last (Nat.le_max_right _ _)]; exact hd
  refine ⟨X, ⟨fun t n => ⟨max n demoRun.length, Nat.le_max_left _ _, .inr (ldead_none (hd' n) _)⟩,
    fun n t m r _ => ⟨max n demoRun.length, Nat.le_max_left _ _, .inl (hd' n)⟩, fun n t fn r _ _ => ⟨max n demoRun.length, Nat.le_max_left _ _, .inl (hd' n)⟩, ?_, ?_⟩, ?_, ?_, ?_, ?_⟩
  · intro n t p hr
    have chk : ∀ n : Fin demoRun.length, (match demoRun[n.val]? with
        | some (.exit u _) | some (.regProg u) => ((lstAt demo demoRun n).stk u).all fun f => match f with
            | .user (.fini _) | .callFini .. => false
            | _ => true
        | _ => true) = true := by decide
    by_cases hn : n < demoRun.length
    · have h := chk ⟨n, hn⟩
      refine ⟨fun v hv => ?_, fun hv => ?_⟩
      all_goals
        simp only [hv, List.all_eq_true] at h
        rcases hr with hr | ⟨e, hr⟩
        · exact absurd (h _ hr) (by simp)
        · exact absurd (h _ hr) (by simp)
    · have : demoRun[n]? = none := by simpa using hn
      simp [this]
  · refine ⟨6, fun n f hf => ?_⟩
    have key : ∀ y, y ∈ (lstAt demo demoRun n).log → ∀ g, regOf y = some g → g < 6 := by
      intro y hy g hg
      have hy := X.log_stays (Nat.le_max_left n demoRun.length) hy
      rw [lstAt_last (Nat.le_max_right _ _)] at hy
      have chk : (((runQ demo init demoRun).getD init).log.all fun y => match regOf y with | some g => decide (g < 6) | none => true) = true := by decide
      have := List.all_eq_true.mp chk y hy
      rw [hg] at this
      simpa using this
    rcases hf with ⟨t, h⟩ | ⟨t, h⟩
    · exact key _ (mem_real.mp h) f rfl
    · exact key _ (mem_real.mp h) f rfl
  · rw [lstAt_last (Nat.le_refl _)]; decide
  · rw [lstAt_last (Nat.le_refl _)]; decide
  · exact ⟨43, by decide, by decide⟩
  · exact ⟨28, by decide, by decide⟩

end Origin.LogProc
