import Verif.Proof.FairProc3
import Verif.Props.Process
/-!
# C62: startup reaches `origin_main`, threads finish, and exits end the process — on every fair schedule

The other process properties say in which order things happen and what has happened when the process ends.  These say that it does end: liveness,
over infinite executions, any number of threads, under weak fairness.  What is assumed of user code is in `Spec/FairProc.lean`.
-/

namespace Origin.Proc

set_option linter.unusedSimpArgs false

variable {c : Cfg} {s s' : State} {st : Nat → State} {act : Nat → Option Action}

/-- The process has ended. -/
def Ended (l : List Ev) : Prop := ∃ t e v, Ev.group t e v ∈ l

theorem ended_step (ih : s.dead = true ↔ Ended s.log) (hd : s.dead = false) (T : Tr c s s') : s'.dead = true ↔ Ended s'.log := by
  have no : ¬ Ended s.log := fun h => by rw [ih.mpr h] at hd; cases hd
  have old : ∀ {es : List Ev} {s' : State}, s'.dead = s.dead → s'.log = es ++ s.log → (∀ e ∈ es, e.isGroup = false) →
      (s'.dead = true ↔ Ended s'.log) := by
    intro es s' h1 h2 h3
    rw [h1, h2, hd]
    refine ⟨fun h => (by cases h), ?_⟩
    rintro ⟨t, e, v, h⟩
    rcases List.mem_append.mp h with h | h
    · have := h3 _ h; cases this
    · exact absurd ⟨t, e, v, h⟩ no
  cases T with
  | group t rest e v hs' _ => exact ⟨fun _ => ⟨t, e, v, List.mem_cons_self⟩, fun _ => rfl⟩
  | regLock t rest s1 hs' ha =>
    obtain ⟨-, -, -, -, -, -, h1, h2⟩ := acquire_fields ha
    exact old (es := []) h1 h2 (by simp)
  | exitLock t rest e v s1 hs' _ ha =>
    obtain ⟨-, -, -, -, -, -, h1, h2⟩ := acquire_fields ha
    exact old (es := []) h1 h2 (by simp)
  | regUnlock t rest f hs' =>
    refine old (es := [_]) ?_ (by simp [State.ev, State.setStk]; rfl) (by simp [Ev.isGroup])
    simp [State.ev, State.setStk]
  | exitUnlock t rest e v f hs' =>
    refine old (es := []) ?_ (by simp [State.ev, State.setStk]) (by simp [Ev.isGroup])
    simp [State.ev, State.setStk]
  | retMain t rest v hs' => exact old (es := [_, _]) rfl rfl (by simp [Ev.isGroup])
  | regProg t fn rest hs' _ => exact old (es := []) rfl rfl (by simp)
  | retStart t rest hs' => exact old (es := []) rfl rfl (by simp)
  | ret t fn rest hs' _ _ => exact old (es := []) rfl rfl (by simp)
  | exitFiniEnd t rest e v hs' => exact old (es := []) rfl rfl (by simp)
  | _ => exact old (es := [_]) rfl rfl (by simp [Ev.isGroup])

theorem Reach.ended (h : Reach c s) : s.dead = true ↔ Ended s.log := by
  induction h with
  | init => simp [Proc.init, Ended]
  | step hr hs ih => exact ended_step ih (step_tr hs).1 (step_tr hs).2

theorem Steps.log_stays (X : Steps c st act) {e : Ev} {n m : Nat} (hm : n ≤ m) (he : e ∈ (st n).log) : e ∈ (st m).log :=
  X.keeps (P := fun s => e ∈ s.log) (fun _ _ _ h hs => log_mono hs h) hm he

theorem Ended.stays (X : Steps c st act) {n m : Nat} (hm : n ≤ m) : Ended (st n).log → Ended (st m).log :=
  fun ⟨t, e, v, h⟩ => ⟨t, e, v, X.log_stays hm h⟩

/-- The moment at which an event happened. -/
theorem Steps.moment (X : Steps c st act) {e : Ev} {n : Nat} (h0 : e ∉ (st 0).log) (he : e ∈ (st n).log) :
    ∃ k x, k < n ∧ act k = some x ∧ e ∉ (st k).log ∧ e ∈ (st (k + 1)).log := by
  induction n with
  | zero => exact absurd he h0
  | succ n ih =>
    by_cases h : e ∈ (st n).log
    · obtain ⟨k, x, h1, h2⟩ := ih h
      exact ⟨k, x, by omega, h2⟩
    · cases ha : act n with
      | none => rw [X.idle n ha] at he; exact absurd he h
      | some x => exact ⟨n, x, by omega, ha, h, he⟩

theorem IsExec.moment (X : IsExec c st act) {e : Ev} {n : Nat} (he : e ∈ (st n).log) :
    ∃ k x, k < n ∧ act k = some x ∧ e ∉ (st k).log ∧ e ∈ (st (k + 1)).log :=
  X.toSteps.moment (by rw [X.start]; exact List.not_mem_nil) he

theorem began {x : Action} (h : step c s x = some s') {t : Tid} {e : Exit} {v : Int} (h0 : Ev.exitBegin t e v ∉ s.log)
    (h1 : Ev.exitBegin t e v ∈ s'.log) : ∃ rest, s'.stk t = .exitThr e v :: rest := by
  cases (step_tr h).2 with
  | exit t' fn rest v' hs =>
    simp only [State.beginExit, State.ev, State.setStk, List.mem_cons] at h1
    rcases h1 with h1 | h1
    · injection h1 with h1 h2 h3
      subst h1; subst h2; subst h3
      exact ⟨_, if_pos rfl⟩
    · exact absurd h1 h0
  | retMain t' rest v' hs =>
    simp only [State.beginExit, State.ev, State.setStk, List.mem_cons] at h1
    rcases h1 with h1 | h1 | h1
    · injection h1 with h1 h2 h3
      subst h1; subst h2; subst h3
      exact ⟨_, if_pos rfl⟩
    · cases h1
    · exact absurd h1 h0
  | regLock t' rest s1 hs' hal => simp [State.setStk, acquire_fields hal] at h1; exact absurd h1 h0
  | exitLock t' rest e' v s1 hs' hp hal => simp [State.setStk, acquire_fields hal] at h1; exact absurd h1 h0
  | _ => simp [State.ev, State.setStk, State.setTd] at h1; exact absurd h1 h0

theorem began_imm {x : Action} (h : step c s x = some s') {t : Tid} {e : Exit} {v : Int} (h0 : Ev.immBegin t e v ∉ s.log)
    (h1 : Ev.immBegin t e v ∈ s'.log) : ∃ rest, s'.stk t = .exitImm e v :: rest := by
  cases (step_tr h).2 with
  | imm t' fn rest v' hs =>
    simp only [State.ev, State.setStk, List.mem_cons] at h1
    rcases h1 with h1 | h1
    · injection h1 with h1 h2 h3
      subst h1; subst h2; subst h3
      exact ⟨_, if_pos rfl⟩
    · exact absurd h1 h0
  | regLock t' rest s1 hs' hal => simp [State.setStk, acquire_fields hal] at h1; exact absurd h1 h0
  | exitLock t' rest e' v s1 hs' hp hal => simp [State.setStk, acquire_fields hal] at h1; exact absurd h1 h0
  | _ => simp [State.ev, State.setStk, State.setTd, State.beginExit] at h1; exact absurd h1 h0

/-- **C62 (`exit` ends the process).** On every fair schedule, if the program registers finitely many functions, none of the functions origin calls
runs for ever, and `.fini_array` functions call neither `exit` nor `program::at_exit`: once any thread has called `exit`, the process ends — whatever the
other threads do, including calling `exit` themselves, registering functions, creating threads, or running for ever. -/
theorem C62_exit_ends {n m : Nat} (hok : c.Ok n m) (X : IsExec c st act) (F : Fair c st act) (H : Finite Fn.handler st act) (Q : QuietFini st act)
    (M : FinitelyMany st) {i : Nat} {t : Tid} {e : Exit} {v : Int} (h : .exitBegin t e v ∈ (st i).log) : ∃ j, i ≤ j ∧ Ended (st j).log := by
  obtain ⟨k, x, hk, ha, h0, h1⟩ := X.moment h
  obtain ⟨rest, hs⟩ := began (X.next k x ha) h0 h1
  obtain ⟨j, hj, h2 | h2⟩ := busy_ends hok X.run F H Q M (k := .exit) (t := t) (w := 5) (by rw [hs]; exact .exitThr _ _ _)
  · exact ⟨max i j, Nat.le_max_left _ _, Ended.stays X.toSteps (Nat.le_max_right _ _) ((X.reach j).ended.mp h2)⟩
  · exact absurd h2 id

/-- **C62 (with its own status).** If moreover that is the only call of `exit` or `immediate_exit` there ever is, the process ends with its status. -/
theorem C62_exit_status {n m : Nat} (hok : c.Ok n m) (X : IsExec c st act) (F : Fair c st act) (H : Finite Fn.handler st act) (Q : QuietFini st act)
    (M : FinitelyMany st) {i : Nat} {t : Tid} {e : Exit} {v : Int} (h : .exitBegin t e v ∈ (st i).log)
    (hu : ∀ j t' e' v', .exitBegin t' e' v' ∈ (st j).log ∨ .immBegin t' e' v' ∈ (st j).log → e' = e) :
    ∃ j, i ≤ j ∧ .group t e v ∈ (st j).log := by
  obtain ⟨j, hj, t', e', v', hg⟩ := C62_exit_ends hok X F H Q M h
  obtain ⟨newer, older, hl⟩ := List.append_of_mem hg
  have h1 := X.toSteps.log_stays hj h
  have hC := (C30_status hok (X.reach j) t' e' v' newer older hl).1
  have he : e' = e := by
    rcases hC with hC | ⟨ts, ps, hC⟩
    · have : Ev.immBegin t' e' v' ∈ course e' older := by rw [hC]; simp
      have : Ev.immBegin t' e' v' ∈ older := by simp [course] at this; exact this.1
      exact hu j t' e' v' (.inr (by rw [hl]; simp [this]))
    · have : Ev.exitBegin t' e' v' ∈ course e' older := by
        have h2 : Ev.exitBegin t' e' v' ∈ course e' older ++ [.group t' e' v'] := by rw [hC]; simp [exitCourse]
        simpa using h2
      have : Ev.exitBegin t' e' v' ∈ older := by simp [course] at this; exact this.1
      exact hu j t' e' v' (.inl (by rw [hl]; simp [this]))
  subst he
  obtain ⟨ts, ps, hpre⟩ := C30_course hok (X.reach j) h1
  have := hpre.subset (mem_course hg rfl)
  simp [exitCourse] at this
  obtain ⟨rfl, rfl⟩ := this
  exact ⟨j, hj, hg⟩

/-- **C62 (`immediate_exit` ends the process).** On every fair schedule, whatever user code does. -/
theorem C62_immediate_ends (X : IsExec c st act) (F : Fair c st act) {i : Nat} {t : Tid} {e : Exit} {v : Int}
    (h : .immBegin t e v ∈ (st i).log) : ∃ j, i ≤ j ∧ Ended (st j).log := by
  obtain ⟨k, x, hk, ha, h0, h1⟩ := X.moment h
  obtain ⟨rest, hs⟩ := began_imm (X.next k x ha) h0 h1
  obtain ⟨j, hj, h2⟩ := fini_gone X.run.toRun0 F hs
  exact ⟨max i j, Nat.le_max_left _ _, Ended.stays X.toSteps (Nat.le_max_right _ _) ((X.reach j).ended.mp h2)⟩

/-- **C62 (`origin_main`'s return ends the process).** -/
theorem C62_main_return_ends {n m : Nat} (hok : c.Ok n m) (X : IsExec c st act) (F : Fair c st act) (H : Finite Fn.handler st act)
    (Q : QuietFini st act) (M : FinitelyMany st) {i : Nat} {v : Int} (h : .mainRet v ∈ (st i).log) : ∃ j, i ≤ j ∧ Ended (st j).log := by
  obtain ⟨newer, older, hl⟩ := List.append_of_mem h
  obtain ⟨newer', e, hn⟩ := C34_exits_with_result hok (X.reach i) newer older v hl
  exact C62_exit_ends hok X F H Q M (t := 0) (e := e) (v := v) (by rw [hl, hn]; simp)

/-- **C62 (threads finish).** Under the same assumptions, a thread whose function has returned runs its `at_exit` functions to the end and is gone,
unless the process ends first. -/
theorem C62_thread_finishes {n m : Nat} (hok : c.Ok n m) (X : IsExec c st act) (F : Fair c st act) (H : Finite Fn.handler st act)
    (Q : QuietFini st act) (M : FinitelyMany st) {i : Nat} {t : Tid} {v : Int} (hr : Running (st i) t .start) (ha : act i = some (.ret t v)) :
    ∃ j, i ≤ j ∧ (.released t ∈ (st j).log ∨ Ended (st j).log) := by
  obtain ⟨rest, hr⟩ := hr
  have h := step_user (X.next i _ ha) hr
  simp only [userStep, Action.tid] at h
  injection h with h
  obtain ⟨j, hj, h2 | h2⟩ := busy_ends hok X.run F H Q M (i := i + 1) (k := .thr) (t := t) (w := 5) (by
    rw [← h]; simp only [State.setStk, if_self]; exact .thrLoop _ rfl)
  · exact ⟨j, by omega, .inr ((X.reach j).ended.mp h2)⟩
  · exact ⟨j, by omega, .inl h2⟩

/-- **C62 (startup reaches `origin_main`).** Under the same assumptions, `origin_main` is called, unless the process ends first (a constructor, or a
thread it created, may call `exit`). -/
theorem C62_main_called {n m : Nat} (hok : c.Ok n m) (X : IsExec c st act) (F : Fair c st act) (H : Finite Fn.handler st act)
    (Q : QuietFini st act) (M : FinitelyMany st) : ∃ j, .main c.args ∈ (st j).log ∨ Ended (st j).log := by
  have hj : ∃ j, c.initFirst + j * c.ws = c.initEnd := by
    unfold Cfg.initFirst
    split
    · next h => exact ⟨n, (hok.init h).symm⟩
    · exact ⟨0, by simp⟩
  obtain ⟨a, ha⟩ := hj
  obtain ⟨j, hj, h2 | h2⟩ := busy_ends hok X.run F H Q M (i := 0) (k := .boot) (t := 0) (w := 4 * a + 6) (by
    rw [X.start]; exact .entry _ _ rfl ha)
  · exact ⟨j, .inr ((X.reach j).ended.mp h2)⟩
  · exact ⟨j, .inl h2⟩

/-! ### Concrete infinite executions: a list of actions, then rest -/

/-- The state after the first `n` of the actions. -/
def stAt (c : Cfg) (xs : List Action) (n : Nat) : State := (run c init (xs.take n)).getD init

theorem run_take {xs : List Action} (h : (run c init xs).isSome = true) (n : Nat) : run c init (xs.take n) = some (stAt c xs n) := by
  have : ∀ (s : State) (ys zs : List Action), (run c s (ys ++ zs)).isSome = true → (run c s ys).isSome = true := by
    intro s ys zs
    induction ys generalizing s with
    | nil => intro _; rfl
    | cons y ys ih =>
      intro h
      simp only [List.cons_append, run] at h ⊢
      cases hs : step c s y with
      | none => rw [hs] at h; cases h
      | some s1 => rw [hs] at h; exact ih s1 h
  have := this init (xs.take n) (xs.drop n) (by rw [List.take_append_drop]; exact h)
  obtain ⟨s, hs⟩ := Option.isSome_iff_exists.mp this
  simp [stAt, hs]

theorem exec_of {xs : List Action} (h : (run c init xs).isSome = true) : IsExec c (stAt c xs) (xs[·]?) := by
  refine ⟨⟨fun n hn => ?_, fun n x hx => ?_⟩, rfl⟩
  · have hle : xs.length ≤ n := by simpa using hn
    simp only [stAt]
    rw [List.take_of_length_le hle, List.take_of_length_le (by omega)]
  · have h1 := run_take h n
    have h2 := run_take h (n + 1)
    rw [List.take_add_one, hx, Option.toList_some, run_append _ _ h1] at h2
    simp only [run] at h2
    cases hs : step c (stAt c xs n) x with
    | none => rw [hs] at h2; cases h2
    | some s1 => rw [hs] at h2; exact h2

theorem stAt_last {xs : List Action} {n : Nat} (hn : xs.length ≤ n) : stAt c xs n = (run c init xs).getD init := by
  simp only [stAt]; rw [List.take_of_length_le hn]

/-- At rest in the end, so fair. -/
theorem fair_of {xs : List Action} (h : ∀ t, step c ((run c init xs).getD init) (.step t) = none) : Fair c (stAt c xs) (xs[·]?) :=
  fun t n => ⟨max n xs.length, Nat.le_max_left _ _, .inr (by rw [stAt_last (Nat.le_max_right _ _)]; exact h t)⟩

theorem many_of {xs : List Action} (h : (run c init xs).isSome = true) : FinitelyMany (stAt c xs) := by
  have X := exec_of h
  refine ⟨((run c init xs).getD init).nextF, fun n f hf => ?_⟩
  have hf' : Regd (stAt c xs (max n xs.length)).log f := by
    rcases hf with ⟨t, ht⟩ | ⟨t, ht⟩
    · exact .inl ⟨t, X.toSteps.log_stays (Nat.le_max_left _ _) ht⟩
    · exact .inr ⟨t, X.toSteps.log_stays (Nat.le_max_left _ _) ht⟩
  have R := X.reach (max n xs.length)
  rw [← stAt_last (Nat.le_max_right n xs.length)]
  rcases hf' with hf' | ⟨t, ht⟩
  · exact R.pinv.fresh f hf'
  · exact R.tinv.fresh t f ht

/-- The history of `demoRun` (two threads, functions for threads and the program, one of which registers another), as an infinite execution: the
hypotheses of all the theorems are met. -/
example : IsExec demo (stAt demo demoRun) (demoRun[·]?) ∧ Fair demo (stAt demo demoRun) (demoRun[·]?) ∧
    Finite Fn.handler (stAt demo demoRun) (demoRun[·]?) ∧ QuietFini (stAt demo demoRun) (demoRun[·]?) ∧ FinitelyMany (stAt demo demoRun) ∧
    .exitBegin 0 0 7 ∈ (stAt demo demoRun demoRun.length).log ∧ .mainRet 7 ∈ (stAt demo demoRun demoRun.length).log ∧
    .group 0 0 7 ∈ (stAt demo demoRun demoRun.length).log ∧ (∃ i, Running (stAt demo demoRun i) 1 .start ∧ demoRun[i]? = some (.ret 1 0)) := by
  have hs : (run demo init demoRun).isSome = true := by decide
  have hd : ((run demo init demoRun).getD init).dead = true := by decide
  refine ⟨exec_of hs, fair_of fun t => dead_none hd _, fun n t fn _ _ => ⟨max n demoRun.length, Nat.le_max_left _ _, .inl ?_⟩, ?_, many_of hs, ?_, ?_, ?_, ?_⟩
  · rw [stAt_last (Nat.le_max_right _ _)]; exact hd
  · intro n t p hr
    have chk : ∀ n : Fin demoRun.length, (match demoRun[n.val]? with
        | some (.exit _ _) | some (.regProg _) => match demoRun[n.val]? with
          | some x => match (stAt demo demoRun n).stk x.tid with
            | .user (.fini _) :: _ => false
            | _ => true
          | none => true
        | _ => true) = true := by decide
    by_cases hn : n < demoRun.length
    · have h := chk ⟨n, hn⟩
      obtain ⟨rest, hr⟩ := hr
      refine ⟨fun v hv => ?_, fun hv => ?_⟩ <;> (simp [hv, Action.tid, hr] at h)
    · have : demoRun[n]? = none := by simpa using hn
      simp [this]
  · rw [stAt_last (Nat.le_refl _)]; decide
  · rw [stAt_last (Nat.le_refl _)]; decide
  · rw [stAt_last (Nat.le_refl _)]; decide
  · refine ⟨21, ⟨[], ?_⟩, ?_⟩
    · decide
    · decide

/-! ### What the hypotheses are for -/

/-- The user function on top. -/
def topFn (s : State) (t : Tid) : Option Fn :=
  match s.stk t with
  | .user fn :: _ => some fn
  | _ => none

theorem running_top {t : Tid} {fn : Fn} : Running s t fn ↔ topFn s t = some fn := by
  unfold Running topFn
  constructor
  · rintro ⟨r, h⟩; rw [h]
  · intro h
    split at h
    · next h1 => injection h with h; subst h; exact ⟨_, h1⟩
    · cases h

def leaves0 : Action → Bool
  | .ret 0 _ | .exit 0 _ | .immExit 0 _ | .regProg 0 => true
  | _ => false

theorem leaves0_leaves {x : Action} (h : leaves0 x = true) : x.Leaves 0 := by
  unfold leaves0 at h
  split at h
  · exact .inl ⟨_, rfl⟩
  · exact .inr (.inl ⟨_, rfl⟩)
  · exact .inr (.inr (.inl ⟨_, rfl⟩))
  · exact .inr (.inr (.inr rfl))
  · cases h

/-- A program with one thread that comes to rest without ending, and the checks that make it a counterexample. -/
theorem hangs {xs : List Action} (hs : (run c init xs).isSome = true) (h1 : ((run c init xs).getD init).nextT = 1)
    (h2 : step c ((run c init xs).getD init) (.step 0) = none) (h3 : topFn ((run c init xs).getD init) 0 = none)
    (h4 : ((run c init xs).getD init).dead = false)
    (h5 : ∀ n : Fin xs.length, (topFn (stAt c xs n) 0).isSome = true → ∃ m : Fin xs.length, n ≤ m ∧ (xs[m.val]?.any leaves0) = true) :
    IsExec c (stAt c xs) (xs[·]?) ∧ Fair c (stAt c xs) (xs[·]?) ∧ Finite (fun _ => True) (stAt c xs) (xs[·]?) ∧ FinitelyMany (stAt c xs) ∧
    ∀ m, ¬ Ended (stAt c xs m).log := by
  have X := exec_of hs
  have R := X.reach xs.length
  rw [stAt_last (Nat.le_refl _)] at R
  have one : ∀ n, (stAt c xs n).nextT ≤ 1 := by
    intro n
    have mono : ∀ {s s' : State}, Tr c s s' → s.nextT ≤ s'.nextT := by
      intro s s' h
      cases h <;> simp [State.ev, State.setStk, State.setTd, State.beginExit]
      case regLock ha => simp [acquire_fields ha]
      case exitLock ha => simp [acquire_fields ha]
    have := X.toSteps.keeps (P := fun s => (stAt c xs n).nextT ≤ s.nextT) (fun s s' x h hs => Nat.le_trans h (mono (step_tr hs).2))
      (Nat.le_max_left n xs.length) (Nat.le_refl _)
    rw [stAt_last (Nat.le_max_right _ _), h1] at this
    exact this
  refine ⟨X, fair_of fun t => ?_, fun n t fn hr _ => ?_, many_of hs, fun m hE => ?_⟩
  · match t with
    | 0 => exact h2
    | t + 1 => simp [step, h4, Action.tid, R.sinv.new (t + 1) (by rw [h1]; exact Nat.succ_le_succ (Nat.zero_le _))]
  · have ht : t = 0 := by
      cases t with
      | zero => rfl
      | succ t =>
        obtain ⟨r, hr⟩ := hr
        rw [(X.reach n).sinv.new (t + 1) (Nat.le_trans (one n) (Nat.succ_le_succ (Nat.zero_le _)))] at hr
        cases hr
    subst ht
    have hr := running_top.mp hr
    by_cases hn : n < xs.length
    · obtain ⟨m, hm, hl⟩ := h5 ⟨n, hn⟩ (by rw [hr]; rfl)
      rw [Option.any_eq_true] at hl
      obtain ⟨x, hx, hl⟩ := hl
      exact ⟨m, hm, .inr ⟨x, hx, leaves0_leaves hl⟩⟩
    · rw [stAt_last (by omega), h3] at hr; cases hr
  · have := (X.reach _).ended.mpr (Ended.stays X.toSteps (Nat.le_max_left m xs.length) hE)
    rw [stAt_last (Nat.le_max_right _ _), h4] at this
    cases this

/-- **C62 is false** of a program one of whose `.fini_array` functions calls `exit`: no function runs for ever, no function is registered, the schedule
is fair, and yet the process never ends (the second `exit` waits for the lock the first has kept). -/
theorem C62_fini_exit_false : ∃ st act, IsExec demo st act ∧ Fair demo st act ∧ Finite (fun _ => True) st act ∧ FinitelyMany st ∧
    (∃ i, .exitBegin 0 0 1 ∈ (st i).log) ∧ ∀ m, ¬ Ended (st m).log := by
  let xs := toMain ++ [.exit 0 1] ++ steps 0 4 ++ [.exit 0 2, .step 0]
  obtain ⟨h1, h2, h3, h4, h5⟩ := hangs (c := demo) (xs := xs) (by decide) (by decide) (by rfl) (by decide) (by decide) (by decide)
  exact ⟨_, _, h1, h2, h3, h4, ⟨7, by decide⟩, h5⟩

/-- **C62 is false** of a program one of whose `.fini_array` functions calls `program::at_exit`, for the same reason. -/
theorem C62_fini_register_false : ∃ st act, IsExec demo st act ∧ Fair demo st act ∧ Finite (fun _ => True) st act ∧ FinitelyMany st ∧
    (∃ i, .exitBegin 0 0 1 ∈ (st i).log) ∧ ∀ m, ¬ Ended (st m).log := by
  let xs := toMain ++ [.exit 0 1] ++ steps 0 4 ++ [.regProg 0]
  obtain ⟨h1, h2, h3, h4, h5⟩ := hangs (c := demo) (xs := xs) (by decide) (by decide) (by rfl) (by decide) (by decide) (by decide)
  exact ⟨_, _, h1, h2, h3, h4, ⟨7, by decide⟩, h5⟩

/-! A function that registers itself anew each time it is called -/

/-- `origin_main` registers a function with `thread::at_exit` and calls `exit(1)`; from then on the function, called, registers another one and returns. -/
def againAct (n : Nat) : Option Action :=
  if n < 8 then (toMain ++ [.regThr 0, .exit 0 1])[n]?
  else some (if (n - 8) % 3 = 0 then .step 0 else if (n - 8) % 3 = 1 then .regThr 0 else .ret 0 0)

def againSt : Nat → State
  | 0 => init
  | n + 1 => ((againAct n).bind (step demo (againSt n))).getD (againSt n)

/-- The three states of the loop. -/
structure AgainInv (n : Nat) (s : State) : Prop where
  alive : s.dead = false
  others : ∀ t, t ≠ 0 → s.stk t = []
  loop : (n % 3 = 0 ∧ s.stk 0 = [.exitThr 0 1, .user .main] ∧ ∃ f, s.tdtors 0 = [f]) ∨
    (n % 3 = 1 ∧ (∃ f, s.stk 0 = [.user (.tdtor f), .exitThr 0 1, .user .main]) ∧ s.tdtors 0 = []) ∨
    (n % 3 = 2 ∧ (∃ f, s.stk 0 = [.user (.tdtor f), .exitThr 0 1, .user .main]) ∧ ∃ f, s.tdtors 0 = [f])

theorem again_loop (n : Nat) : AgainInv n (againSt (8 + n)) ∧ ∃ x, againAct (8 + n) = some x ∧ step demo (againSt (8 + n)) x = some (againSt (8 + n + 1)) := by
  have key : ∀ n, AgainInv n (againSt (8 + n)) → ∃ x s', againAct (8 + n) = some x ∧ step demo (againSt (8 + n)) x = some s' ∧ AgainInv (n + 1) s' := by
    intro n I
    unfold againAct
    rw [if_neg (by omega), show 8 + n - 8 = n by omega]
    rcases I.loop with ⟨h, hs, f, hf⟩ | ⟨h, ⟨f, hs⟩, hf⟩ | ⟨h, ⟨f, hs⟩, g, hf⟩
    · refine ⟨_, _, rfl, by simp [h, step, I.alive, Action.tid, hs, frameStep, hf, demo]; rfl, ?_, ?_, ?_⟩
      · exact I.alive
      · intro t ht; simp [State.ev, State.setStk, State.setTd, ht, I.others t ht]
      · exact .inr (.inl ⟨by omega, ⟨f, by simp [State.ev, State.setStk]⟩, by simp [State.ev, State.setStk, State.setTd]⟩)
    · refine ⟨_, _, rfl, by simp [h, step, I.alive, Action.tid, hs, userStep, hf, demo]; rfl, ?_, ?_, ?_⟩
      · rfl
      · intro t ht; simp [State.ev, State.setTd, I.others t ht]
      · exact .inr (.inr ⟨by omega, ⟨f, by simp [State.ev, State.setTd, hs]⟩, _, by simp [State.ev, State.setTd]; rfl⟩)
    · refine ⟨_, _, rfl, by simp [h, step, I.alive, Action.tid, hs, userStep, hf, demo]; rfl, ?_, ?_, ?_⟩
      · exact I.alive
      · intro t ht; simp [State.setStk, ht, I.others t ht]
      · exact .inl ⟨by omega, by simp [State.setStk], g, by simp [State.setStk, hf]⟩
  have I : AgainInv n (againSt (8 + n)) := by
    induction n with
    | zero =>
      refine ⟨by decide, fun t ht => ?_, .inl ⟨rfl, by decide, 0, by decide⟩⟩
      match t, ht with
      | t + 1, _ => rfl
    | succ n ih =>
      obtain ⟨x, s', h1, h2, h3⟩ := key n ih
      have : againSt (8 + (n + 1)) = s' := by
        show ((againAct (8 + n)).bind (step demo (againSt (8 + n)))).getD (againSt (8 + n)) = s'
        rw [h1, Option.bind_some, h2, Option.getD_some]
      rw [this]; exact h3
  refine ⟨I, ?_⟩
  obtain ⟨x, s', h1, h2, -⟩ := key n I
  refine ⟨x, h1, ?_⟩
  show _ = some (((againAct (8 + n)).bind (step demo (againSt (8 + n)))).getD (againSt (8 + n)))
  rw [h1, Option.bind_some, h2, Option.getD_some]

/-- **C62 (finitely many registrations) is needed**: a function registered with `thread::at_exit` that registers another each time, though each call
of it returns, keeps `exit` from ending the process. -/
theorem C62_registering_false : ∃ st act, IsExec demo st act ∧ Fair demo st act ∧ Finite (fun _ => True) st act ∧ QuietFini st act ∧
    (∃ i, .exitBegin 0 0 1 ∈ (st i).log) ∧ ∀ m, ¬ Ended (st m).log := by
  have split : ∀ n : Nat, n < 8 ∨ ∃ k, n = 8 + k := fun n => by
    by_cases h : n < 8
    · exact .inl h
    · exact .inr ⟨n - 8, by omega⟩
  have early : ∀ n : Fin 8, ∃ x, againAct n = some x ∧ (step demo (againSt n) x).isSome = true := by
    intro n
    have h : ∀ n : Fin 8, ((againAct n).bind (step demo (againSt n))).isSome = true := by decide
    have h := h n
    cases hx : againAct n with
    | none => rw [hx] at h; cases h
    | some x => exact ⟨x, rfl, by rw [hx] at h; exact h⟩
  have X : IsExec demo againSt againAct := by
    refine ⟨⟨fun n hn => ?_, fun n x hx => ?_⟩, rfl⟩
    · rcases split n with h | ⟨k, rfl⟩
      · obtain ⟨x, h1, -⟩ := early ⟨n, h⟩
        rw [show againAct n = some x from h1] at hn; cases hn
      · obtain ⟨x, h1, -⟩ := (again_loop k).2
        rw [h1] at hn; cases hn
    · rcases split n with h | ⟨k, rfl⟩
      · obtain ⟨x', h1, h2⟩ := early ⟨n, h⟩
        have h1 : againAct n = some x' := h1
        rw [hx] at h1
        injection h1 with h1
        subst h1
        obtain ⟨s', hs⟩ := Option.isSome_iff_exists.mp h2
        have hs : step demo (againSt n) x = some s' := hs
        show _ = some (((againAct n).bind (step demo (againSt n))).getD (againSt n))
        rw [hx, Option.bind_some, hs, Option.getD_some]
      · obtain ⟨x', h1, h2⟩ := (again_loop k).2
        rw [hx] at h1
        injection h1 with h1
        subst h1
        exact h2
  have alone : ∀ n t, t ≠ 0 → (againSt n).stk t = [] := by
    intro n t ht
    rcases split n with h | ⟨k, rfl⟩
    · match t, ht with
      | t + 1, _ =>
        have : n = 0 ∨ n = 1 ∨ n = 2 ∨ n = 3 ∨ n = 4 ∨ n = 5 ∨ n = 6 ∨ n = 7 := by omega
        rcases this with rfl | rfl | rfl | rfl | rfl | rfl | rfl | rfl <;> rfl
    · exact (again_loop k).1.others t ht
  refine ⟨againSt, againAct, X, ?_, ?_, ?_, ⟨8, by decide⟩, ?_⟩
  · intro t n
    by_cases ht : t = 0
    · subst ht
      refine ⟨8 + 3 * n, by omega, .inl ?_⟩
      unfold againAct
      rw [if_neg (by omega), if_pos (by omega)]
    · exact ⟨n, Nat.le_refl _, .inr (by simp [step, Action.tid, alone n t ht])⟩
  · intro n t fn hr _
    have ht : t = 0 := Classical.byContradiction fun ht => by
      obtain ⟨r, hr⟩ := hr
      rw [alone n t ht] at hr; cases hr
    subst ht
    refine ⟨8 + (3 * n + 2), by omega, .inr ⟨.ret 0 0, ?_, .inl ⟨0, rfl⟩⟩⟩
    unfold againAct
    rw [if_neg (by omega), if_neg (by omega), if_neg (by omega)]
  · intro n t p hr
    exfalso
    have ht : t = 0 := Classical.byContradiction fun ht => by
      obtain ⟨r, hr⟩ := hr
      rw [alone n t ht] at hr; cases hr
    subst ht
    rcases split n with h | ⟨k, rfl⟩
    · have chk : ∀ n : Fin 8, (match topFn (againSt n) 0 with | some (.fini _) => false | _ => true) = true := by decide
      have := chk ⟨n, h⟩
      rw [show topFn (againSt n) 0 = some (.fini p) from running_top.mp hr] at this
      cases this
    · obtain ⟨r, hr⟩ := hr
      rcases (again_loop k).1.loop with ⟨-, hs, -⟩ | ⟨-, ⟨f, hs⟩, -⟩ | ⟨-, ⟨f, hs⟩, -⟩ <;> rw [hs] at hr <;> simp at hr
  · intro m hE
    have h := (X.reach _).ended.mpr (Ended.stays X.toSteps (show m ≤ 8 + m by omega) hE)
    rw [(again_loop m).1.alive] at h
    cases h

end Origin.Proc
