import Verif.Proof.ForkProc
import Verif.Props.FairProc
import Verif.Spec.ForkProc
/-!
# C67: `at_exit` and `exit` in the child of a fork

`ReachF c s`: any process made from the initial one by any number of forks, following the child.  Its history `s.log` begins with that of its parent up to
the fork.
-/

namespace Origin.Proc

set_option linter.unusedSimpArgs false

variable {c : Cfg} {s s' s1 : State} {st : Nat → State} {act : Nat → Option Action}

/-! ### order and completeness -/

/-- **C67 (a thread's functions).** Whenever a function is called as one of a thread's `at_exit` functions — in whatever process — that thread had registered it,
in this process or in an ancestor before the fork, it had not been called before, and every function the thread registered after it has been called. -/
theorem C67_thread_lifo (h : ReachF c s) (t : Tid) (o : Option Exit) (f : FnId) :
    Whenever s.log (.tCall t o f) fun old =>
      .tReg t f ∈ old ∧ ¬ TCalled old t f ∧ ∀ g, Later old (.tReg t g) (.tReg t f) → TCalled old t g := by
  obtain ⟨s0, V, S⟩ := h.sim
  rw [S.log]; exact C28_lifo S.reach t o f

/-- **C67 (a thread's functions).** When a thread has exited, every function it ever registered has been called. -/
theorem C67_thread_all_called (h : ReachF c s) {t : Tid} {f : FnId} (hr : .released t ∈ s.log) (hf : .tReg t f ∈ s.log) : TCalled s.log t f := by
  obtain ⟨s0, V, S⟩ := h.sim
  rw [S.log] at hr hf ⊢; exact C28_all_called S.reach hr hf

/-- **C67 (a thread's functions).** When `exit` goes on to the program's functions, every function the thread registered before has been called. -/
theorem C67_exit_all_called (h : ReachF c s) (t : Tid) (e : Exit) :
    Whenever s.log (.tDone t e) fun old => ∀ f, .tReg t f ∈ old → TCalled old t f := by
  obtain ⟨s0, V, S⟩ := h.sim
  rw [S.log]; exact C28_exit_all_called S.reach t e

/-- **C67 (the program's functions).** Whenever an `exit` call takes a function off the list, it was registered (by any thread of this process or of an ancestor
before the fork), had not been taken before, and every function registered after it has already been taken. -/
theorem C67_program_lifo (h : ReachF c s) (t : Tid) (e : Exit) (f : FnId) :
    Whenever s.log (.pTake t e f) fun old =>
      PRegd old f ∧ ¬ PTaken old f ∧ ∀ g t₁ t₂, Later old (.pReg t₁ g) (.pReg t₂ f) → PTaken old g := by
  obtain ⟨s0, V, S⟩ := h.sim
  rw [S.log]; exact C29_lifo S.reach t e f

/-- **C67 (the program's functions).** A function is called only by the `exit` call that took it, and only once. -/
theorem C67_program_once (h : ReachF c s) (t : Tid) (e : Exit) (f : FnId) :
    Whenever s.log (.pCall t e f) fun old => .pTake t e f ∈ old ∧ ¬ PCalled old f := by
  obtain ⟨s0, V, S⟩ := h.sim
  rw [S.log]; exact C29_called_once S.reach t e f

/-- **C67 (the program's functions).** When an `exit` call has finished the program's functions, every registered function, inherited or not, has been taken,
and those this thread took have been called. -/
theorem C67_program_all (h : ReachF c s) (t : Tid) (e : Exit) :
    Whenever s.log (.pDone t e) fun old =>
      (∀ f, PRegd old f → PTaken old f) ∧ ∀ e' f, .pTake t e' f ∈ old → .pCall t e' f ∈ old := by
  obtain ⟨s0, V, S⟩ := h.sim
  rw [S.log]; exact C29_all_taken S.reach t e

/-- **C67 (`exit`).** What an `exit(v)` call has done is an initial part of: the thread's functions, the program's, the `.fini_array` functions last to first,
the end of the process with status `v`. -/
theorem C67_course {n m : Nat} (hok : c.Ok n m) (h : ReachF c s) {t : Tid} {e : Exit} {v : Int} (hb : .exitBegin t e v ∈ s.log) :
    ∃ ts ps, course e s.log <+: exitCourse c m t e v ts ps := by
  obtain ⟨s0, V, S⟩ := h.sim
  rw [S.log] at hb ⊢; exact C30_course hok S.reach hb

/-- **C67 (`exit`).** When the process ends, it is with the status of the last call of `exit` or `immediate_exit` on the thread that ends it, and all of the
phases have been gone through if it was `exit`. -/
theorem C67_status {n m : Nat} (hok : c.Ok n m) (h : ReachF c s) (t : Tid) (e : Exit) (v : Int) :
    Whenever s.log (.group t e v) fun old =>
      (course e old = [.immBegin t e v] ∨ ∃ ts ps, course e old ++ [.group t e v] = exitCourse c m t e v ts ps) ∧
      ∀ e' v', .exitBegin t e' v' ∈ old ∨ .immBegin t e' v' ∈ old → e' ≤ e := by
  obtain ⟨s0, V, S⟩ := h.sim
  rw [S.log]; exact C30_status hok S.reach t e v

/-- **C67 (`.fini_array`).** Each `.fini_array` function is called at most once along any line of processes, last to first. -/
theorem C67_fini_once {n m : Nat} (hok : c.Ok n m) (h : ReachF c s) (h1 : c.thread = true) (h2 : c.programAtExit = true) :
    finiCalls s.log <+: finiOrder c m ∧ (finiCalls s.log).Nodup := by
  obtain ⟨s0, V, S⟩ := h.sim
  rw [S.log]; exact C31_fini_once hok S.reach h1 h2

/-- **C67 (registrations are not dropped).** -/
theorem C67_no_drop (h : ReachF c s) (hc : c.thread = true) (hf : PFinished s.log) {t : Tid} {f : FnId} (hr : .pRegRet t f ∈ s.log) : PTaken s.log f := by
  obtain ⟨s0, V, S⟩ := h.sim
  rw [S.log] at hf hr ⊢; exact C32_no_drop S.reach hc hf hr

/-! ### who is left -/

theorem From.reachF (h : From c s s') (h0 : ReachF c s) : ReachF c s' := by
  induction h with
  | refl => exact h0
  | step _ hs ih => exact .step ih hs

/-- **C67 (the only thread).** After the fork, everything that happens in the child happens on the thread that called `fork`, or on a thread created since:
in particular the functions other threads registered for themselves are not called there. -/
theorem C67_only_thread (h : ReachF c s) {t : Tid} (hf : forkChild s t = some s1) (h' : From c s1 s') :
    ∃ newer, s'.log = newer ++ s.log ∧ ∀ x ∈ newer, ∀ u, x.on = some u → u = t ∨ .spawned u ∈ newer := by
  obtain ⟨-, -, rfl⟩ := forkChild_some hf
  suffices h2 : ∃ newer, s'.log = newer ++ s.log ∧ (∀ x ∈ newer, ∀ u, x.on = some u → u = t ∨ .spawned u ∈ newer) ∧
      ∀ u, s'.stk u ≠ [] → u = t ∨ .spawned u ∈ newer by
    obtain ⟨newer, h3, h4, -⟩ := h2
    exact ⟨newer, h3, h4⟩
  induction h' with
  | refl => exact ⟨[], rfl, by simp, fun u hu => .inl (Classical.byContradiction fun hne => by simp [hne] at hu)⟩
  | step h1 hs ih =>
    rename_i a b x
    obtain ⟨newer, h3, h4, h5⟩ := ih
    have T := (step_tr hs).2
    obtain ⟨v, E⟩ := T.eff
    obtain ⟨evs, h6, h7, -, -⟩ := E.log
    have hv := h5 v E.run
    have up : ∀ u, (u = t ∨ Ev.spawned u ∈ newer) → u = t ∨ Ev.spawned u ∈ evs ++ newer :=
      fun u h => h.imp id fun h => List.mem_append_right _ h
    refine ⟨evs ++ newer, by rw [h6, h3, List.append_assoc], fun y hy u hu => ?_, fun u hu => ?_⟩
    · rcases List.mem_append.mp hy with hy | hy
      · rw [h7 y hy u hu]; exact up v hv
      · exact up u (h4 y hy u hu)
    · by_cases huv : u = v
      · rw [huv]; exact up v hv
      · by_cases hun : u = a.nextT
        · -- a new thread
          have hnew : a.stk u = [] := (From.reachF h1 (.fork h hf)).sim.elim fun s0 h => h.elim fun V S => S.sinv.new u (Nat.le_of_eq hun.symm)
          cases T with
          | spawn t' fn rest hs' _ =>
            have : evs = [.spawned a.nextT] := by
              have : evs ++ a.log = [.spawned a.nextT] ++ a.log := by rw [← h6]; rfl
              exact List.append_cancel_right this
            right; rw [this, hun]; simp
          | regLock t' rest s1 hs' ha =>
            have : u ≠ t' := by rintro rfl; rw [hs'] at hnew; cases hnew
            simp [State.setStk, acquire_fields ha, this, hnew] at hu
          | exitLock t' rest e v s1 hs' _ ha =>
            have : u ≠ t' := by rintro rfl; rw [hs'] at hnew; cases hnew
            simp [State.setStk, acquire_fields ha, this, hnew] at hu
          | _ =>
            exfalso
            simp only [State.ev, State.setStk, State.setTd, State.beginExit] at hu
            first
              | exact hu hnew
              | (split at hu
                 · next heq => subst heq; simp_all
                 · exact hu (by simpa using hnew))
        · exact up u (h5 u (by rw [← E.other u huv hun]; exact hu))

/-! ### the lock -/

theorem child_eq {t : Tid} (hf : forkChild s t = some s1) : s1.log = s.log ∧ s1.lock = s.lock ∧ s1.stk t = s.stk t ∧ s1.dead = false ∧ s1.nextT = s.nextT := by
  obtain ⟨hd, -, rfl⟩ := forkChild_some hf
  exact ⟨rfl, rfl, by simp, hd, rfl⟩

/-- A thread that is running a `.fini_array` function has finished the program's functions. -/
theorem fini_running {n m : Nat} (hok : c.Ok n m) (h : Reach c s) {t : Tid} {p : Nat} (hr : Running s t (.fini p)) :
    ∃ e, Ev.pDone t e ∈ s.log ∧ ∃ w, FiniStk c (s.stk t) w :=
  fini_running_of (h.einv hok) (h.nest t) hr

/-- If nobody else held the lock, all is well with it in the child. -/
theorem child_inv {n m : Nat} (hok : c.Ok n m) (h : ReachF c s) {t : Tid} (hf : forkChild s t = some s1) (G : GoodFork s t) :
    SInv c s1 ∧ LInv c s1 ∧ (c.thread = true → c.programAtExit = true → ∀ t e, Ev.pDone t e ∈ s1.log → ∃ w, FiniStk c (s1.stk t) w) := by
  obtain ⟨s0, V, S⟩ := h.sim
  have S1 := S.fork hf
  obtain ⟨e1, e2, e3, e4, e5⟩ := child_eq hf
  obtain ⟨-, ⟨fn, rest, hs⟩, -⟩ := forkChild_some hf
  have htV : ¬ V t := fun hv => by rw [S.gone t hv] at hs; cases hs
  have own : c.thread = true → c.programAtExit = true → ∀ p, Running s t (.fini p) → s.lock = some t ∧ ∃ w, FiniStk c (s.stk t) w := by
    intro hc hp p hr
    have hk := S.kept t htV
    obtain ⟨e, he, hw⟩ := fini_running hok S.reach (t := t) (p := p) (by unfold Running at hr ⊢; rw [← hk]; exact hr)
    exact ⟨by rw [S.lock]; exact S.reach.linv.lk3 hc hp t e he, by rw [hk]; exact hw⟩
  refine ⟨S1.sinv, S1.linv fun hc hp u hu => ?_, fun hc hp u e he => ?_⟩
  · rw [e2] at hu
    rcases G with G | ⟨p, G⟩
    · rw [G] at hu; cases hu
    · obtain ⟨h1, -⟩ := own hc hp p G
      rw [h1] at hu; injection hu with hu
      subst hu
      exact fun h => h.elim htV fun h => h.1 rfl
  · have hl := S1.reach.linv.lk3 hc hp u e (by rw [← S1.log]; exact he)
    rw [← S1.lock, e2] at hl
    rcases G with G | ⟨p, G⟩
    · rw [G] at hl; cases hl
    · obtain ⟨h1, hw⟩ := own hc hp p G
      rw [h1] at hl; injection hl with hl
      subst hl
      rw [e3]; exact hw

theorem IsChild.run {n m : Nat} (hok : c.Ok n m) {t : Tid} (X : IsChild c s t st act) (G : GoodFork s t) : Run c st act := by
  obtain ⟨h1, h2, h3⟩ := child_inv hok X.parent X.start G
  exact { X.toSteps with sinv0 := h1, linv0 := h2, done0 := h3 }

theorem IsChild.run0 {t : Tid} (X : IsChild c s t st act) : Run0 c st act := by
  obtain ⟨s0, V, S⟩ := (ReachF.fork X.parent X.start).sim
  exact { X.toSteps with sinv0 := S.sinv }

theorem IsChild.reachF {t : Tid} (X : IsChild c s t st act) : ∀ n, ReachF c (st n)
  | 0 => .fork X.parent X.start
  | n + 1 => by
    cases h : act n with
    | none => rw [X.idle n h]; exact X.reachF n
    | some x => exact .step (X.reachF n) (X.next n x h)

theorem ReachF.ended (h : ReachF c s) : s.dead = true ↔ Ended s.log := by
  obtain ⟨s0, V, S⟩ := h.sim
  rw [S.dead, S.log]; exact S.reach.ended

/-- A thread that forks in the middle of `exit` is still in the middle of it. -/
theorem exit_busy {n m : Nat} (hok : c.Ok n m) (h : Reach c s) {t : Tid} {e : Exit} {v : Int} (hb : .exitBegin t e v ∈ s.log)
    (hr : ∃ fn rest, s.stk t = .user fn :: rest) : (∃ w, Busy c .exit (s.stk t) w) ∨ ∃ w, FiniStk c (s.stk t) w :=
  busy_of_user (h.einv hok) (h.nest t) (h.sinv.shape t) .exit
    (List.ne_nil_of_mem (((h.einv hok).begun t e v (.inl hb)).resolve_left id)) hr

/-! ### progress in the child -/

/-- **C67 (`exit` in the child ends it), when nobody else held the lock.**  If nobody held the lock of the program's functions at the fork (or only
the calling thread, a `.fini_array` function), then — on every fair schedule, under the conditions of C62 on the child's user code — an `exit` call in the child, made after
the fork or in progress on the thread that called `fork`, ends the child. -/
theorem C67_exit_ends_partial {n m : Nat} (hok : c.Ok n m) {t : Tid} (X : IsChild c s t st act) (G : GoodFork s t) (F : Fair c st act)
    (H : Finite Fn.handler st act) (Q : QuietFini st act) (M : FinitelyMany st) {i : Nat} {u : Tid} {e : Exit} {v : Int}
    (h : .exitBegin u e v ∈ (st i).log) (hu : u = t ∨ .exitBegin u e v ∉ s.log) : ∃ j, i ≤ j ∧ Ended (st j).log := by
  have fin : ∀ {j}, (st j).dead = true → ∃ j, i ≤ j ∧ Ended (st j).log := fun {j} hd =>
    ⟨max i j, Nat.le_max_left _ _, Ended.stays X.toSteps (Nat.le_max_right _ _) ((X.reachF j).ended.mp hd)⟩
  have R := X.run hok G
  have bus : ∀ {k w}, Busy c .exit ((st k).stk u) w → ∃ j, i ≤ j ∧ Ended (st j).log := fun {k w} hb => by
    obtain ⟨j, hj, h2 | h2⟩ := busy_ends hok R F H Q M hb
    · exact fin h2
    · exact absurd h2 id
  by_cases h0 : Ev.exitBegin u e v ∈ (st 0).log
  · obtain ⟨e1, -, e3, -, -⟩ := child_eq X.start
    rw [e1] at h0
    have hut : u = t := hu.resolve_right (fun h => h h0)
    subst hut
    obtain ⟨s0, V, S⟩ := X.parent.sim
    obtain ⟨-, ⟨fn, rest, hs⟩, -⟩ := forkChild_some X.start
    have htV : ¬ V u := fun hv => by rw [S.gone u hv] at hs; cases hs
    have hk := S.kept u htV
    rcases exit_busy hok S.reach (t := u) (e := e) (v := v) (by rw [← S.log]; exact h0) ⟨fn, rest, by rw [← hk]; exact hs⟩ with ⟨w, hw⟩ | ⟨w, hw⟩
    · exact bus (k := 0) (w := w) (by rw [e3, hk]; exact hw)
    · obtain ⟨j, -, hj⟩ := fini_ends R F H Q (n := 0) (t := u) (w := w) (by rw [e3, hk]; exact hw)
      exact fin hj
  · obtain ⟨k, x, hk, ha, h1, h2⟩ := X.toSteps.moment h0 h
    obtain ⟨rest, hs⟩ := began (X.next k x ha) h1 h2
    exact bus (k := k + 1) (w := 5) (by rw [hs]; exact .exitThr _ _ _)

/-- **C67 (threads of the child finish), when nobody else held the lock.** -/
theorem C67_thread_finishes_partial {n m : Nat} (hok : c.Ok n m) {t : Tid} (X : IsChild c s t st act) (G : GoodFork s t) (F : Fair c st act)
    (H : Finite Fn.handler st act) (Q : QuietFini st act) (M : FinitelyMany st) {i : Nat} {u : Tid} {v : Int} (hr : Running (st i) u .start)
    (ha : act i = some (.ret u v)) : ∃ j, i ≤ j ∧ (.released u ∈ (st j).log ∨ Ended (st j).log) := by
  obtain ⟨rest, hr⟩ := hr
  have h := step_user (X.next i _ ha) hr
  simp only [userStep, Action.tid] at h
  injection h with h
  obtain ⟨j, hj, h2 | h2⟩ := busy_ends hok (X.run hok G) F H Q M (i := i + 1) (k := .thr) (t := u) (w := 5) (by
    rw [← h]; simp only [State.setStk, if_self]; exact .thrLoop _ rfl)
  · exact ⟨j, by omega, .inr ((X.reachF j).ended.mp h2)⟩
  · exact ⟨j, by omega, .inl h2⟩

/-- **C67 (`immediate_exit` in the child ends it).** On every fair schedule, whoever held the lock, whatever user code does. -/
theorem C67_immediate_ends {t : Tid} (X : IsChild c s t st act) (F : Fair c st act) {i : Nat} {u : Tid} {e : Exit} {v : Int}
    (h : .immBegin u e v ∈ (st i).log) (h0 : .immBegin u e v ∉ s.log) : ∃ j, i ≤ j ∧ Ended (st j).log := by
  rw [← (child_eq X.start).1] at h0
  obtain ⟨k, x, hk, ha, h1, h2⟩ := X.toSteps.moment h0 h
  obtain ⟨rest, hs⟩ := began_imm (X.next k x ha) h1 h2
  obtain ⟨j, hj, h2⟩ := fini_gone X.run0 F hs
  exact ⟨max i j, Nat.le_max_left _ _, Ended.stays X.toSteps (Nat.le_max_right _ _) ((X.reachF j).ended.mp h2)⟩

/-- **C67 (`program::at_exit` in the child returns), when nobody else held the lock**: within five further steps of origin's own code the function is
registered and the call returns, or some `exit` call has finished the program's functions. -/
theorem C67_at_exit_completes_partial {n m : Nat} (hok : c.Ok n m) (h : ReachF c s) {t : Tid} (hf : forkChild s t = some s1) (G : GoodFork s t)
    (h' : From c s1 s') (hd : s'.dead = false) (hp : c.programAtExit = true) {u : Tid} {fn : Fn} {rest : List Frame}
    (hs : s'.stk u = .user fn :: rest) (hF : ¬ PFinished s'.log) :
    ∃ acts s'', run c s' (.regProg u :: acts) = some s'' ∧ acts.length ≤ 5 ∧ (∀ a ∈ acts, ∃ u, a = .step u) ∧
      ((∃ f, ¬ PRegd s'.log f ∧ .pReg u f ∈ s''.log ∧ .pRegRet u f ∈ s''.log) ∨ PFinished s''.log) := by
  obtain ⟨h1, h2, -⟩ := child_inv hok h hf G
  have inv : SInv c s' ∧ LInv c s' := by
    clear hd hs hF
    induction h' with
    | refl => exact ⟨h1, h2⟩
    | step _ hs ih =>
      have T := (step_tr hs).2
      exact ⟨ih.1.step T, ih.2.step ih.1 T⟩
  obtain ⟨s0, V, S⟩ := (h'.reachF (.fork h hf)).sim
  refine at_exit_completes inv.1 inv.2 (fun f hr => ?_) hd hp hs hF
  have : s'.nextF = s0.nextF := by rw [← S.rest]
  rw [this]
  exact S.reach.pinv.fresh f (by rw [← S.log]; exact hr)

/-- If no thread other than the caller is inside `program::at_exit` or `exit`, and the caller is not either, or is running a `.fini_array` function, it is a
good fork. -/
theorem GoodFork.of {n m : Nat} (hok : c.Ok n m) (h : Reach c s) {t : Tid} (hc : c.thread = true) (ho : ∀ u, u ≠ t → ¬ InExit s u)
    (ht : ¬ InExit s t ∨ ∃ p, Running s t (.fini p)) : GoodFork s t := by
  refine ht.elim (fun ht => .inl ?_) .inr
  have ho : ∀ u, ¬ InExit s u := fun u => (Classical.em (u = t)).elim (fun h => h ▸ ht) (ho u)
  cases hl : s.lock with
  | none => rfl
  | some u =>
    exfalso
    rcases h.linv.lk2 hc u hl with ⟨fr, hm, hcr⟩ | ⟨e, he⟩
    · refine ho u ⟨fr, hm, ?_⟩
      cases fr <;> simp [Frame.crit] at hcr <;> trivial
    · obtain ⟨t', ht'⟩ := ((h.einv hok).cover e (List.ne_nil_of_mem (mem_course he rfl))).resolve_left id
      obtain ⟨fr, h1, h2⟩ := mem_insts.mp ht'
      refine ho t' ⟨fr, h1, ?_⟩
      cases fr <;> simp [Frame.inst] at h2 <;> trivial

/-! ### what goes wrong otherwise -/

/-- **C67 is false of a child made while another thread held the lock** (it was inside `program::at_exit`, or taking functions off the list in `exit`, or had got
to the `.fini_array` functions): however the child goes on, no function is registered with `program::at_exit` any more, no registered function is called, no
`.fini_array` function is called, and the child does not end but by `immediate_exit`. -/
theorem C67_lock_lost_false {n m : Nat} (hok : c.Ok n m) (hc : c.thread = true) (hp : c.programAtExit = true) (h : ReachF c s) {t : Tid}
    (hf : forkChild s t = some s1) {u : Tid} (hu : u ≠ t) (hl : s.lock = some u) (h' : From c s1 s') :
    ∃ newer, s'.log = newer ++ s.log ∧ (∀ v f, .pReg v f ∉ newer) ∧ (∀ v e f, .pTake v e f ∉ newer) ∧
      (∀ v e p, .fini v e p ∉ newer) ∧ ∀ v e w, .group v e w ∈ newer → .immBegin v e w ∈ s'.log := by
  obtain ⟨e1, e2, e3, e4, e5⟩ := child_eq hf
  have hun : u < s.nextT := by
    obtain ⟨s0, V, S⟩ := h.sim
    rw [S.nextT]
    apply Nat.lt_of_not_le
    intro hle
    have h0 := S.reach.sinv.new u hle
    rcases S.reach.linv.lk2 hc u (by rw [← S.lock]; exact hl) with ⟨fr, hm, -⟩ | ⟨e, he⟩
    · rw [h0] at hm; cases hm
    · obtain ⟨t', ht'⟩ := ((S.reach.einv hok).cover e (List.ne_nil_of_mem (mem_course he rfl))).resolve_left id
      obtain ⟨fr, h1, h2⟩ := mem_insts.mp ht'
      obtain ⟨st', h3 | ⟨ts, ps, h3⟩⟩ := ((S.reach.einv hok).form t' fr h1).prefix h2
      · have := h3.subset (mem_course he rfl); simp at this
      · have := h3.subset (mem_course he rfl); simp [exitCourse] at this
        rw [← this, h0] at h1; cases h1
  have stk0 : s1.stk u = [] := by
    obtain ⟨-, -, rfl⟩ := forkChild_some hf
    simp [hu]
  -- nobody is in the locked regions, and nobody gets there
  suffices key : s'.lock = some u ∧ s'.stk u = [] ∧ u < s'.nextT ∧ ∃ newer, s'.log = newer ++ s.log ∧ (∀ v f, .pReg v f ∉ newer) ∧
      (∀ v e f, .pTake v e f ∉ newer) ∧ (∀ v e, .pDone v e ∉ newer) ∧ ∀ x ∈ newer, x.on ≠ some u by
    obtain ⟨k1, k2, k3, newer, k4, k5, k6, k7, k8⟩ := key
    obtain ⟨s0, V, S⟩ := (h'.reachF (.fork h hf)).sim
    have lk : ∀ v e, Ev.pDone v e ∈ s'.log → v = u := by
      intro v e he
      have := S.reach.linv.lk3 hc hp v e (by rw [← S.log]; exact he)
      rw [← S.lock, k1] at this
      injection this with this
      exact this.symm
    refine ⟨newer, k4, k5, k6, fun v e p hm => ?_, fun v e w hm => ?_⟩
    · have hm' : Ev.fini v e p ∈ s0.log := by rw [← S.log, k4]; exact List.mem_append_left _ hm
      obtain ⟨v', w', h1 | ⟨ts, ps, h1⟩⟩ := S.reach.course hok hm' rfl
      · have := h1.subset (mem_course hm' rfl); simp at this
      · have h2 := h1.subset (mem_course hm' rfl)
        simp [exitCourse] at h2
        obtain ⟨_, -, h2, -⟩ := h2
        rw [h2] at h1
        have : Ev.pDone v e ∈ course e s0.log := by
          unfold exitCourse at h1
          refine prefix_mid (A := [Ev.exitBegin v e w'] ++ ts.map (.tCall v (some e)) ++ [.tDone v e] ++ ps.flatMap (fun f => [.pTake v e f, .pCall v e f]))
            (B := (List.range m).reverse.map (fun i => .fini v e (c.finiStart + i * c.ws)) ++ [.group v e w']) (by simpa using h1) (mem_course hm' rfl) (by simp)
        have : Ev.pDone v e ∈ s'.log := by rw [S.log]; simp [course] at this; exact this.1
        exact k8 _ hm (by rw [lk v e this]; rfl)
    · obtain ⟨a, b, hab⟩ := List.append_of_mem (show Ev.group v e w ∈ s'.log by rw [k4]; exact List.mem_append_left _ hm)
      have h1 := (C67_status hok (h'.reachF (.fork h hf)) v e w a b hab).1
      rcases h1 with h1 | ⟨ts, ps, h1⟩
      · have : Ev.immBegin v e w ∈ course e b := by rw [h1]; simp
        simp [course] at this
        rw [hab]; exact List.mem_append_right _ (List.mem_cons_of_mem _ this.1)
      · have : Ev.pDone v e ∈ course e b ++ [.group v e w] := by rw [h1]; simp [exitCourse]
        simp [course] at this
        have : Ev.pDone v e ∈ s'.log := by rw [hab]; exact List.mem_append_right _ (List.mem_cons_of_mem _ this.1)
        exact absurd (show (Ev.group v e w).on = some u by rw [lk v e this]; rfl) (k8 _ hm)
  induction h' with
  | refl => exact ⟨by rw [e2]; exact hl, stk0, by rw [e5]; exact hun, [], by rw [e1]; rfl, by simp, by simp, by simp, by simp⟩
  | step h1 hs ih =>
    rename_i a b x
    obtain ⟨k1, k2, k3, newer, k4, k5, k6, k7, k8⟩ := ih
    have T := (step_tr hs).2
    obtain ⟨s0, V, S⟩ := (h1.reachF (.fork h hf)).sim
    have nocrit : ∀ {v fr rest}, a.stk v = fr :: rest → fr.crit = true → False := by
      intro v fr rest hv hcr
      have hm := S.mem (t := v) (fr := fr) (by rw [hv]; simp)
      have := (S.reach.linv.lk1 hc v fr hm.2 hcr).1
      rw [← S.lock, k1] at this
      injection this with this
      subst this
      rw [k2] at hv; cases hv
    obtain ⟨v, E⟩ := T.eff
    have hvu : u ≠ v := by rintro rfl; exact E.run k2
    obtain ⟨evs, l1, l2, -, -⟩ := E.log
    have quiet : b.lock = a.lock → (∀ y ∈ evs, (∀ v f, y ≠ .pReg v f) ∧ (∀ v e f, y ≠ .pTake v e f) ∧ ∀ v e, y ≠ .pDone v e) →
        b.lock = some u ∧ b.stk u = [] ∧ u < b.nextT ∧ ∃ newer, b.log = newer ++ s.log ∧ (∀ v f, .pReg v f ∉ newer) ∧
        (∀ v e f, .pTake v e f ∉ newer) ∧ (∀ v e, .pDone v e ∉ newer) ∧ ∀ x ∈ newer, x.on ≠ some u := by
      intro q1 q2
      refine ⟨by rw [q1]; exact k1, by rw [E.other u hvu (Nat.ne_of_lt k3)]; exact k2, Nat.lt_of_lt_of_le k3 E.next, evs ++ newer,
        by rw [l1, k4, List.append_assoc], ?_, ?_, ?_, ?_⟩
      · intro w f hm
        rcases List.mem_append.mp hm with hm | hm
        · exact (q2 _ hm).1 w f rfl
        · exact k5 w f hm
      · intro w e f hm
        rcases List.mem_append.mp hm with hm | hm
        · exact (q2 _ hm).2.1 w e f rfl
        · exact k6 w e f hm
      · intro w e hm
        rcases List.mem_append.mp hm with hm | hm
        · exact (q2 _ hm).2.2 w e rfl
        · exact k7 w e hm
      · intro y hm
        rcases List.mem_append.mp hm with hm | hm
        · intro hy; exact hvu (l2 y hm u hy)
        · exact k8 y hm
    have one : ∀ {es : List Ev}, b.log = es ++ a.log → evs = es := fun {es} he => List.append_cancel_right (by rw [← l1]; exact he)
    cases T with
    | regLock t' rest s2 hs' ha =>
      rcases acquire_some ha with ⟨-, hl', -⟩ | ⟨h2, -⟩
      · rw [k1] at hl'; cases hl'
      · rw [hc] at h2; cases h2
    | exitLock t' rest e v' s2 hs' _ ha =>
      rcases acquire_some ha with ⟨-, hl', -⟩ | ⟨h2, -⟩
      · rw [k1] at hl'; cases hl'
      · rw [hc] at h2; cases h2
    | regPush t' rest hs' => exact (nocrit hs' rfl).elim
    | regUnlock t' rest f hs' => exact (nocrit hs' rfl).elim
    | exitPop t' rest e v' f fs hs' _ => exact (nocrit hs' rfl).elim
    | exitPopEnd t' rest e v' hs' _ => exact (nocrit hs' rfl).elim
    | exitUnlock t' rest e v' f hs' => exact (nocrit hs' rfl).elim
    | exitNoLock t' rest e v' hs' hq => rw [hp] at hq; cases hq
    | retMain t' rest v' hs' => exact quiet rfl (by rw [one (es := [_, _]) rfl]; simp)
    | regProg t' fn rest hs' _ => exact quiet rfl (by rw [one (es := []) rfl]; simp)
    | retStart t' rest hs' => exact quiet rfl (by rw [one (es := []) rfl]; simp)
    | ret t' fn rest hs' _ _ => exact quiet rfl (by rw [one (es := []) rfl]; simp)
    | exitFiniEnd t' rest e v' hs' => exact quiet rfl (by rw [one (es := []) rfl]; simp)
    | _ => exact quiet rfl (by rw [one (es := [_]) rfl]; simp)

/-! ### concrete children -/

/-- The state after the first `n` of the actions, from `s1`. -/
def stFrom (c : Cfg) (s1 : State) (xs : List Action) (n : Nat) : State := (run c s1 (xs.take n)).getD s1

theorem runFrom_take {xs : List Action} (h : (run c s1 xs).isSome = true) (n : Nat) : run c s1 (xs.take n) = some (stFrom c s1 xs n) := by
  have : ∀ (s : State) (ys zs : List Action), (run c s (ys ++ zs)).isSome = true → (run c s ys).isSome = true := by
    intro s ys zs
    induction ys generalizing s with
    | nil => intro _; rfl
    | cons y ys ih =>
      intro h
      simp only [List.cons_append, run] at h ⊢
      cases hs : step c s y with
      | none => rw [hs] at h; cases h
      | some s1 => rw [hs] at h; exact ih s1 h
  have := this s1 (xs.take n) (xs.drop n) (by rw [List.take_append_drop]; exact h)
  obtain ⟨s, hs⟩ := Option.isSome_iff_exists.mp this
  simp [stFrom, hs]

theorem stepsFrom {xs : List Action} (h : (run c s1 xs).isSome = true) : Steps c (stFrom c s1 xs) (xs[·]?) := by
  refine ⟨fun n hn => ?_, fun n x hx => ?_⟩
  · have hle : xs.length ≤ n := by simpa using hn
    simp only [stFrom]
    rw [List.take_of_length_le hle, List.take_of_length_le (by omega)]
  · have h1 := runFrom_take h n
    have h2 := runFrom_take h (n + 1)
    rw [List.take_add_one, hx, Option.toList_some, run_append _ _ h1] at h2
    simp only [run] at h2
    cases hs : step c (stFrom c s1 xs n) x with
    | none => rw [hs] at h2; cases h2
    | some s1 => rw [hs] at h2; exact h2

theorem stFrom_last {xs : List Action} {n : Nat} (hn : xs.length ≤ n) : stFrom c s1 xs n = (run c s1 xs).getD s1 := by
  simp only [stFrom]; rw [List.take_of_length_le hn]

/-- `origin_main` registers function 0, creates thread 1, and thread 1 is in the middle of registering another (it holds the lock) when the main thread
forks. -/
def forkInAtExit : List Action := toMain ++ [.regProg 0] ++ steps 0 3 ++ [.spawn 0, .regProg 1, .step 1]

/-- `origin_main` creates thread 1, which calls `exit`, and is running a `.fini_array` function when the main thread forks. -/
def forkInFini : List Action := toMain ++ [.spawn 0, .exit 1 5] ++ steps 1 4

/-- The child calls `exit(3)`. -/
def childExit : List Action := [.exit 0 3, .step 0]

def atFork (xs : List Action) : State := (run demo init xs).getD init
def childOf (xs : List Action) : State := (forkChild (atFork xs) 0).getD init

theorem Reach.forks (h : Reach c s) : ReachF c s := by
  induction h with
  | init => exact .init
  | step _ h ih => exact .step ih h

theorem child_of {xs ys : List Action} (hx : (run demo init xs).isSome = true) (hf : (forkChild (atFork xs) 0).isSome = true)
    (hs : (run demo (childOf xs) ys).isSome = true) : IsChild demo (atFork xs) 0 (stFrom demo (childOf xs) ys) (ys[·]?) := by
  have hR : Reach demo (atFork xs) := by
    obtain ⟨s, hs⟩ := Option.isSome_iff_exists.mp hx
    have : atFork xs = s := by simp [atFork, hs]
    rw [this]; exact reach_run xs .init hs
  refine { stepsFrom hs with parent := hR.forks, start := ?_ }
  obtain ⟨s, hs⟩ := Option.isSome_iff_exists.mp hf
  have : childOf xs = s := by simp [childOf, hs]
  rw [hs]; simp [stFrom, run, this]

theorem child_many {xs ys : List Action} (hx : (run demo init xs).isSome = true) (hf : (forkChild (atFork xs) 0).isSome = true)
    (hs : (run demo (childOf xs) ys).isSome = true) : FinitelyMany (stFrom demo (childOf xs) ys) := by
  have X := child_of hx hf hs
  refine ⟨((run demo (childOf xs) ys).getD (childOf xs)).nextF, fun n f hf => ?_⟩
  have hf' : Regd (stFrom demo (childOf xs) ys (max n ys.length)).log f := by
    rcases hf with ⟨t, ht⟩ | ⟨t, ht⟩
    · exact .inl ⟨t, X.toSteps.log_stays (Nat.le_max_left _ _) ht⟩
    · exact .inr ⟨t, X.toSteps.log_stays (Nat.le_max_left _ _) ht⟩
  obtain ⟨s0, V, S⟩ := (X.reachF (max n ys.length)).sim
  rw [← stFrom_last (Nat.le_max_right n ys.length)]
  have : (stFrom demo (childOf xs) ys (max n ys.length)).nextF = s0.nextF := by rw [← S.rest]
  rw [this]
  rw [S.log] at hf'
  rcases hf' with hf' | ⟨t, ht⟩
  · exact S.reach.pinv.fresh f hf'
  · exact S.reach.tinv.fresh t f ht

/-- Two threads before the fork, then a child that comes to rest without ending. -/
theorem child_hangs {xs ys : List Action} (hx : (run demo init xs).isSome = true) (hf : (forkChild (atFork xs) 0).isSome = true)
    (hs : (run demo (childOf xs) ys).isSome = true) (h0 : ∀ n : Fin (ys.length + 1), (stFrom demo (childOf xs) ys n).nextT = 2)
    (h1 : ∀ n : Fin (ys.length + 1), (stFrom demo (childOf xs) ys n).stk 1 = [])
    (h2 : step demo ((run demo (childOf xs) ys).getD (childOf xs)) (.step 0) = none) (h3 : topFn ((run demo (childOf xs) ys).getD (childOf xs)) 0 = none)
    (h4 : ((run demo (childOf xs) ys).getD (childOf xs)).dead = false)
    (h5 : ∀ n : Fin ys.length, (topFn (stFrom demo (childOf xs) ys n) 0).isSome = true → ∃ m : Fin ys.length, n ≤ m ∧ (ys[m.val]?.any leaves0) = true)
    (h6 : ∀ n : Fin (ys.length + 1), (match topFn (stFrom demo (childOf xs) ys n) 0 with | some (.fini _) => false | _ => true) = true) :
    IsChild demo (atFork xs) 0 (stFrom demo (childOf xs) ys) (ys[·]?) ∧ Fair demo (stFrom demo (childOf xs) ys) (ys[·]?) ∧
      Finite (fun _ => True) (stFrom demo (childOf xs) ys) (ys[·]?) ∧ QuietFini (stFrom demo (childOf xs) ys) (ys[·]?) ∧
      FinitelyMany (stFrom demo (childOf xs) ys) ∧ ∀ m, ¬ Ended (stFrom demo (childOf xs) ys m).log := by
  have X := child_of hx hf hs
  have idx : ∀ n, ∃ k : Fin (ys.length + 1), stFrom demo (childOf xs) ys n = stFrom demo (childOf xs) ys k := by
    intro n
    by_cases hn : n < ys.length + 1
    · exact ⟨⟨n, hn⟩, rfl⟩
    · exact ⟨⟨ys.length, by omega⟩, by rw [stFrom_last (by omega), stFrom_last (Nat.le_refl _)]⟩
  have alone : ∀ n t, t ≠ 0 → (stFrom demo (childOf xs) ys n).stk t = [] := by
    intro n t ht
    obtain ⟨k, hk⟩ := idx n
    match t, ht with
    | 1, _ => rw [hk]; exact h1 k
    | t + 2, _ => exact (X.run0.sinv n).new (t + 2) (by rw [hk, h0 k]; exact Nat.le_add_left 2 t)
  refine ⟨X, fun t n => ⟨max n ys.length, Nat.le_max_left _ _, .inr ?_⟩, fun n t fn hr _ => ?_, fun n t p hr => ?_, ?_, fun m hE => ?_⟩
  · by_cases ht : t = 0
    · subst ht; rw [stFrom_last (Nat.le_max_right _ _)]; exact h2
    · simp [step, Action.tid, alone _ t ht]
  · have ht : t = 0 := Classical.byContradiction fun ht => by
      obtain ⟨r, hr⟩ := hr
      rw [alone n t ht] at hr; cases hr
    subst ht
    have hr := running_top.mp hr
    by_cases hn : n < ys.length
    · obtain ⟨m, hm, hl⟩ := h5 ⟨n, hn⟩ (by rw [hr]; rfl)
      rw [Option.any_eq_true] at hl
      obtain ⟨x, hx, hl⟩ := hl
      exact ⟨m, hm, .inr ⟨x, hx, leaves0_leaves hl⟩⟩
    · rw [stFrom_last (by omega), h3] at hr; cases hr
  · exfalso
    have ht : t = 0 := Classical.byContradiction fun ht => by
      obtain ⟨r, hr⟩ := hr
      rw [alone n t ht] at hr; cases hr
    subst ht
    obtain ⟨k, hk⟩ := idx n
    have := h6 k
    rw [← hk, running_top.mp hr] at this
    cases this
  · exact child_many hx hf hs
  · have := (X.reachF _).ended.mpr (Ended.stays X.toSteps (Nat.le_max_left m ys.length) hE)
    rw [stFrom_last (Nat.le_max_right _ _), h4] at this
    cases this

/-- **C67 (`exit` ends the child) is false** if another thread was inside `program::at_exit` at the fork: the child calls `exit` and, fairly scheduled, never ends. -/
theorem C67_exit_false : ∃ s st act, IsChild demo s 0 st act ∧ Fair demo st act ∧ Finite (fun _ => True) st act ∧ QuietFini st act ∧ FinitelyMany st ∧
    (∃ fn rest, s.stk 1 = .regPush :: .user fn :: rest) ∧ (∃ i, .exitBegin 0 0 3 ∈ (st i).log ∧ .exitBegin 0 0 3 ∉ s.log) ∧ ∀ m, ¬ Ended (st m).log := by
  obtain ⟨h1, h2, h3, h4, h5, h6⟩ := child_hangs (xs := forkInAtExit) (ys := childExit) (by decide) (by decide) (by decide) (by decide) (by decide) (by rfl)
    (by decide) (by decide) (by decide) (by decide)
  exact ⟨_, _, _, h1, h2, h3, h4, h5, ⟨_, _, rfl⟩, ⟨1, by decide, by decide⟩, h6⟩

/-- **C67 (`exit` ends the child) is false** too if another thread had called `exit` and was running a `.fini_array` function at the fork. -/
theorem C67_exit_fini_false : ∃ s st act, IsChild demo s 0 st act ∧ Fair demo st act ∧ Finite (fun _ => True) st act ∧ QuietFini st act ∧ FinitelyMany st ∧
    Running s 1 (.fini 208) ∧ (∃ i, .exitBegin 0 1 3 ∈ (st i).log ∧ .exitBegin 0 1 3 ∉ s.log) ∧ ∀ m, ¬ Ended (st m).log := by
  obtain ⟨h1, h2, h3, h4, h5, h6⟩ := child_hangs (xs := forkInFini) (ys := childExit) (by decide) (by decide) (by decide) (by decide) (by decide) (by rfl)
    (by decide) (by decide) (by decide) (by decide)
  exact ⟨_, _, _, h1, h2, h3, h4, h5, ⟨_, rfl⟩, ⟨1, by decide, by decide⟩, h6⟩

/-- `origin_main` registers function 0 for itself and 1 for the program, and creates thread 1, which registers 2 for itself and is running when the main thread
forks. -/
def forkQuietly : List Action := toMain ++ [.regThr 0, .regProg 0] ++ steps 0 3 ++ [.spawn 0, .regThr 1]

/-- The child creates a thread, which returns; it registers 3 for the program and calls `exit(3)`. -/
def childRun : List Action := [.spawn 0, .ret 2 0, .step 2, .regProg 0] ++ steps 0 3 ++ [.exit 0 3, .step 0, .ret 0 0] ++ steps 0 5 ++ [.ret 0 0] ++ steps 0 4 ++ [.ret 0 0] ++ steps 0 3 ++
  [.ret 0 0, .step 0, .ret 0 0] ++ steps 0 2

/-- The hypotheses of the theorems are met: the child calls what it inherited, and what it registered, and ends; thread 1's function is not called. -/
example : IsChild demo (atFork forkQuietly) 0 (stFrom demo (childOf forkQuietly) childRun) (childRun[·]?) ∧ GoodFork (atFork forkQuietly) 0 ∧
    Fair demo (stFrom demo (childOf forkQuietly) childRun) (childRun[·]?) ∧ Finite Fn.handler (stFrom demo (childOf forkQuietly) childRun) (childRun[·]?) ∧
    QuietFini (stFrom demo (childOf forkQuietly) childRun) (childRun[·]?) ∧ FinitelyMany (stFrom demo (childOf forkQuietly) childRun) ∧
    ((stFrom demo (childOf forkQuietly) childRun childRun.length).log.take 15).reverse =
      [.spawned 2, .released 2, .pReg 0 3, .pRegRet 0 3, .exitBegin 0 0 3, .tCall 0 (some 0) 0, .tDone 0 0, .pTake 0 0 3, .pCall 0 0 3, .pTake 0 0 1, .pCall 0 0 1, .pDone 0 0,
        .fini 0 0 208, .fini 0 0 200, .group 0 0 3] ∧
    .tReg 1 2 ∈ (atFork forkQuietly).log ∧ Running (stFrom demo (childOf forkQuietly) childRun 1) 2 .start := by
  have hs : (run demo (childOf forkQuietly) childRun).isSome = true := by decide
  have hd : ((run demo (childOf forkQuietly) childRun).getD (childOf forkQuietly)).dead = true := by decide
  refine ⟨child_of (by decide) (by decide) hs, .inl (by decide), fun t n => ⟨max n childRun.length, Nat.le_max_left _ _, .inr ?_⟩,
    fun n t fn _ _ => ⟨max n childRun.length, Nat.le_max_left _ _, .inl ?_⟩, ?_, child_many (by decide) (by decide) hs, ?_, by decide, ⟨[], by decide⟩⟩
  · rw [stFrom_last (Nat.le_max_right _ _)]; exact dead_none hd _
  · rw [stFrom_last (Nat.le_max_right _ _)]; exact hd
  · intro n t p hr
    have chk : ∀ n : Fin childRun.length, (match childRun[n.val]? with
        | some (.exit _ _) | some (.regProg _) => match childRun[n.val]? with
          | some x => match (stFrom demo (childOf forkQuietly) childRun n).stk x.tid with
            | .user (.fini _) :: _ => false
            | _ => true
          | none => true
        | _ => true) = true := by decide
    by_cases hn : n < childRun.length
    · have h := chk ⟨n, hn⟩
      obtain ⟨rest, hr⟩ := hr
      refine ⟨fun v hv => ?_, fun hv => ?_⟩ <;> (simp [hv, Action.tid, hr] at h)
    · have : childRun[n]? = none := by simpa using hn
      simp [this]
  · decide

end Origin.Proc
