import Verif.Proof.Process7
/-!
# C28 – C32, C34: `at_exit` functions, program start and program exit

Every theorem is about an arbitrary reachable state (`Reach c s`): any number of threads, any interleaving,
any calls made by user code.  `s.log` is the history so far, newest first.
-/

namespace Origin.Proc

set_option linter.unusedSimpArgs false

theorem whenever_of {P : Ev → List Ev → Prop} {l : List Ev} (h : TraceOk P l) (e : Ev) : Whenever l e (P e) :=
  fun _ _ hl => h.at hl

/-! ## C28 -/

/-- C28: whenever a function is called as one of a thread's `at_exit` functions, that thread had registered it,
it had not been called before, and every function the thread registered after it has already been called. -/
theorem C28_lifo {c : Cfg} {s : State} (h : Reach c s) (t : Tid) (o : Option Exit) (f : FnId) :
    Whenever s.log (.tCall t o f) fun old =>
      .tReg t f ∈ old ∧ ¬ TCalled old t f ∧ ∀ g, Later old (.tReg t g) (.tReg t f) → TCalled old t g :=
  whenever_of h.tinv.tr _

/-- C28: when a thread has exited, every function it ever registered has been called. -/
theorem C28_all_called {c : Cfg} {s : State} (h : Reach c s) {t : Tid} {f : FnId} (hr : .released t ∈ s.log)
    (hf : .tReg t f ∈ s.log) : TCalled s.log t f := h.rinv.all t f hr hf

/-- C28: a thread's functions are all called before its memory is released: nothing happens on a thread after
that. -/
theorem C28_before_release {c : Cfg} {s : State} (h : Reach c s) {t : Tid} {x : Ev} (hx : x.on = some t) :
    Whenever s.log x fun old => .released t ∉ old :=
  fun _ _ hl => (h.onok.1.at hl).1 t hx

/-- C28: when program exit on a thread goes on to the program's functions, every function the thread
registered before has been called. -/
theorem C28_exit_all_called {c : Cfg} {s : State} (h : Reach c s) (t : Tid) (e : Exit) :
    Whenever s.log (.tDone t e) fun old => ∀ f, .tReg t f ∈ old → TCalled old t f :=
  whenever_of h.tinv.tr _

/-- C28: a thread that is exiting always goes on (to the next function, or to releasing its memory). -/
theorem C28_progress {c : Cfg} {s : State} (_ : Reach c s) (hd : s.dead = false) {t : Tid} {rest : List Frame}
    (hs : s.stk t = .thrLoop :: rest) : ∃ s', step c s (.step t) = some s' :=
  frame_progress hd hs (by simp) (by simp)

/-! ## C29 -/

/-- C29: whenever an `exit` call takes a function off the program's list, the function was registered, had
not been taken before, and every function registered after it (by any thread) has already been taken. -/
theorem C29_lifo {c : Cfg} {s : State} (h : Reach c s) (t : Tid) (e : Exit) (f : FnId) :
    Whenever s.log (.pTake t e f) fun old =>
      PRegd old f ∧ ¬ PTaken old f ∧ ∀ g t₁ t₂, Later old (.pReg t₁ g) (.pReg t₂ f) → PTaken old g :=
  whenever_of h.pinv.tr _

/-- C29: a function is called only by the `exit` call that took it, and only once. -/
theorem C29_called_once {c : Cfg} {s : State} (h : Reach c s) (t : Tid) (e : Exit) (f : FnId) :
    Whenever s.log (.pCall t e f) fun old => .pTake t e f ∈ old ∧ ¬ PCalled old f :=
  whenever_of h.pinv.tr _

/-- C29: when an `exit` call has finished the program's functions, every registered function has been taken,
and those this thread took have been called. -/
theorem C29_all_taken {c : Cfg} {s : State} (h : Reach c s) (t : Tid) (e : Exit) :
    Whenever s.log (.pDone t e) fun old =>
      (∀ f, PRegd old f → PTaken old f) ∧ ∀ e' f, .pTake t e' f ∈ old → .pCall t e' f ∈ old :=
  fun _ _ hl => have := h.pinv.tr.at hl; ⟨this.1, this.2.1⟩

theorem reg_completes {c : Cfg} {s : State} {t : Tid} {rest : List Frame} (hd : s.dead = false)
    (hs : s.stk t = .regLock :: rest) (hl : c.thread = true → s.lock = none) :
    ∃ s', run c s [.step t, .step t, .step t] = some s' ∧ .pRegRet t s.nextF ∈ s'.log ∧ .pReg t s.nextF ∈ s'.log := by
  have ha : ∃ s1, s.acquire c t = some s1 ∧ s1.nextF = s.nextF ∧ s1.dead = s.dead := by
    unfold State.acquire
    cases hc : c.thread with
    | false => exact ⟨s, by simp, rfl, rfl⟩
    | true => exact ⟨{ s with lock := some t }, by simp [hl hc], rfl, rfl⟩
  obtain ⟨s1, h1, h2, h3⟩ := ha
  obtain ⟨-, -, -, -, -, -, h4, h5⟩ := release_fields c
    (({ s1.setStk t (.regPush :: rest) with dtors := s1.nextF :: s1.dtors, nextF := s1.nextF + 1 }.setStk t
      (.regUnlock s1.nextF :: rest)).ev (.pReg t s1.nextF))
  have e1 : step c s (.step t) = some (s1.setStk t (.regPush :: rest)) := by
    simp [step, hd, Action.tid, hs, frameStep, h1]
  have e2 : step c (s1.setStk t (.regPush :: rest)) (.step t) =
      some (({ s1.setStk t (.regPush :: rest) with dtors := s1.nextF :: s1.dtors, nextF := s1.nextF + 1 }.setStk t
      (.regUnlock s1.nextF :: rest)).ev (.pReg t s1.nextF)) := by
    simp [step, hd, h3, Action.tid, State.setStk, frameStep]
  refine ⟨_, by simp only [run, e1, Option.bind_some, e2]; simp [step, hd, h3, Action.tid, State.setStk, State.ev, frameStep]; rfl, ?_, ?_⟩
  · rw [← h2]; exact List.mem_cons_self
  · rw [← h2]
    apply List.mem_cons_of_mem
    exact List.mem_cons_self

theorem run_append {c : Cfg} (xs ys : List Action) : ∀ {s s' : State}, run c s xs = some s' → run c s (xs ++ ys) = run c s' ys := by
  induction xs with
  | nil => intro s s' h; simp [run] at h; subst h; rfl
  | cons x xs ih =>
    intro s s' h
    simp only [run, Option.bind_eq_some_iff] at h
    obtain ⟨s1, h1, h2⟩ := h
    simp only [List.cons_append, run, h1, Option.bind_some]
    exact ih h2

/-- The holder of the lock gives it up within two of its own steps, unless it finishes the program's
functions. -/
theorem holder_releases {c : Cfg} {s : State} {u : Tid} {fr : Frame} {rest : List Frame} (hc : c.thread = true) (hd : s.dead = false)
    (hs : s.stk u = fr :: rest) (hcr : fr.crit = true) :
    ∃ acts s', run c s acts = some s' ∧ acts.length ≤ 2 ∧ (∀ a ∈ acts, a = .step u) ∧
      ((s'.lock = none ∧ s'.dead = false ∧ s.nextF ≤ s'.nextF ∧ ∀ t, t ≠ u → s'.stk t = s.stk t) ∨ PFinished s'.log) := by
  cases fr <;> simp [Frame.crit] at hcr
  case regPush =>
    refine ⟨[.step u, .step u], ?_⟩
    refine ⟨_, by simp [run, step, hd, Action.tid, hs, frameStep, State.setStk, State.ev]; rfl, by simp, by simp, .inl ?_⟩
    simp [State.release, hc]
    exact fun t ht => by simp [ht]
  case regUnlock f =>
    refine ⟨[.step u], ?_⟩
    refine ⟨_, by simp [run, step, hd, Action.tid, hs, frameStep, State.setStk, State.ev]; rfl, by simp, by simp, .inl ?_⟩
    simp [State.release, hc, hd]
    exact fun t ht => by simp [ht]
  case exitPop e st =>
    cases hds : s.dtors with
    | nil =>
      refine ⟨[.step u], ?_⟩
      refine ⟨_, by simp [run, step, hd, Action.tid, hs, frameStep, State.setStk, State.ev, hds]; rfl, by simp, by simp, .inr ?_⟩
      exact ⟨u, e, by simp⟩
    | cons f fs =>
      refine ⟨[.step u, .step u], ?_⟩
      refine ⟨_, by simp [run, step, hd, Action.tid, hs, frameStep, State.setStk, State.ev, hds]; rfl, by simp, by simp, .inl ?_⟩
      simp [State.release, hc, hd]
      exact fun t ht => by simp [ht]
  case exitUnlock e st f =>
    refine ⟨[.step u], ?_⟩
    refine ⟨_, by simp [run, step, hd, Action.tid, hs, frameStep, State.setStk, State.ev]; rfl, by simp, by simp, .inl ?_⟩
    simp [State.release, hc, hd]
    exact fun t ht => by simp [ht]

theorem at_exit_completes {c : Cfg} {s : State} (S : SInv c s) (L : LInv c s) (fresh : ∀ f, PRegd s.log f → f < s.nextF) (hd : s.dead = false)
    (hp : c.programAtExit = true) {t : Tid} {fn : Fn} {rest : List Frame} (hs : s.stk t = .user fn :: rest) (hf : ¬ PFinished s.log) :
    ∃ acts s', run c s (.regProg t :: acts) = some s' ∧ acts.length ≤ 5 ∧ (∀ a ∈ acts, ∃ u, a = .step u) ∧
      ((∃ f, ¬ PRegd s.log f ∧ .pReg t f ∈ s'.log ∧ .pRegRet t f ∈ s'.log) ∨ PFinished s'.log) := by
  have e1 : step c s (.regProg t) = some (s.setStk t (.regLock :: .user fn :: rest)) := by
    simp [step, hd, Action.tid, hs, userStep, hp]
  have T := (step_tr e1).2
  have L1 := L.step S T
  have S1 := S.step T
  have hnew : ∀ k, s.nextF ≤ k → ¬ PRegd s.log k := fun k hk hreg => Nat.lt_irrefl _ (Nat.lt_of_lt_of_le (fresh k hreg) hk)
  have hs1 : (s.setStk t (.regLock :: .user fn :: rest)).stk t = .regLock :: .user fn :: rest := by simp [State.setStk]
  by_cases hl : c.thread = true → s.lock = none
  · obtain ⟨s', h1, h2, h3⟩ := reg_completes (c := c) (s := s.setStk t (.regLock :: .user fn :: rest)) hd hs1 hl
    exact ⟨[.step t, .step t, .step t], s', by rw [run, e1]; exact h1, by simp, by simp, .inl ⟨_, hnew _ (Nat.le_refl _), h3, h2⟩⟩
  · obtain ⟨hc, hl⟩ := Classical.not_imp.mp hl
    cases hk : s.lock with
    | none => exact absurd hk hl
    | some u =>
      obtain ⟨fr, rest', hu, hcr⟩ := L1.holder S1 hc (u := u) hk hf
      have hut : t ≠ u := by
        rintro rfl
        rw [hs1] at hu; injection hu with hu _; subst hu; cases hcr
      obtain ⟨acts, s', h1, h2, h3, h4⟩ := holder_releases hc (s := s.setStk t (.regLock :: .user fn :: rest)) hd hu hcr
      rcases h4 with ⟨g1, g2, g3, g4⟩ | hfin
      · obtain ⟨s'', k1, k2, k3⟩ := reg_completes (c := c) (s := s') g2 (by rw [g4 t hut]; exact hs1) (fun _ => g1)
        refine ⟨acts ++ [.step t, .step t, .step t], s'', ?_, by simp; omega, ?_, .inl ⟨_, hnew _ g3, k3, k2⟩⟩
        · simp only [run, e1, Option.bind_some]
          rw [run_append acts _ h1]; exact k1
        · intro a ha
          rcases List.mem_append.mp ha with ha | ha
          · exact ⟨u, h3 a ha⟩
          · simp at ha; exact ⟨t, ha⟩
      · exact ⟨acts, s', by simp only [run, e1, Option.bind_some]; exact h1, by omega, fun a ha => ⟨u, h3 a ha⟩, .inr hfin⟩

/-- C29: user code on any thread, including an `at_exit` function that is running, may register another
function: within five further steps of origin's own code, with no user code involved, the call returns and
the function is registered, or some `exit` call has finished the program's functions. -/
theorem C29_at_exit_completes {c : Cfg} {s : State} (h : Reach c s) (hd : s.dead = false) (hp : c.programAtExit = true)
    {t : Tid} {fn : Fn} {rest : List Frame} (hs : s.stk t = .user fn :: rest) (hf : ¬ PFinished s.log) :
    ∃ acts s', run c s (.regProg t :: acts) = some s' ∧ acts.length ≤ 5 ∧ (∀ a ∈ acts, ∃ u, a = .step u) ∧
      ((∃ f, ¬ PRegd s.log f ∧ .pReg t f ∈ s'.log ∧ .pRegRet t f ∈ s'.log) ∨ PFinished s'.log) :=
  at_exit_completes h.sinv h.linv h.pinv.fresh hd hp hs hf

/-! ## C30 -/

theorem Form.prefix {c : Cfg} {n : Nat} {t : Tid} {d : Bool} {l : List Ev} {fr : Frame} {e : Exit} (h : Form c n t d l fr)
    (he : fr.inst = some e) : ∃ st, course e l <+: [.immBegin t e st, .group t e st] ∨
      ∃ ts ps, course e l <+: exitCourse c n t e st ts ps := by
  have fp : ∀ st ts ps k, k ≤ n → finiPart c n t e st ts ps k <+: exitCourse c n t e st ts ps := by
    intro st ts ps k hk
    rw [exitCourse_eq]
    unfold finiPart
    have hr : List.range' 0 (n - 0) = List.range' 0 k ++ List.range' k (n - k) := by
      have := List.range'_append_1 (s := 0) (m := k) (n := n - k)
      rw [Nat.zero_add] at this
      rw [this]; congr 1; omega
    rw [hr, List.reverse_append, List.map_append, ← List.append_assoc, List.append_assoc _ _ [Ev.group t e st]]
    exact List.prefix_append _ _
  have pp : ∀ st ts ps, progPart t e st ts ps <+: exitCourse c n t e st ts ps := by
    intro st ts ps
    rw [exitCourse_eq]; unfold finiPart
    simp only [List.append_assoc]
    exact List.prefix_append _ _
  cases fr <;> simp only [Frame.inst] at he <;> (try (cases he; done))
  all_goals (injection he with he; subst he)
  case exitThr st =>
    obtain ⟨ts, h⟩ := h
    refine ⟨st, .inr ⟨ts, [], ?_⟩⟩
    rw [h, exitCourse_eq]; unfold finiPart progPart
    simp only [List.append_assoc]
    exact List.prefix_append _ _
  case exitLock st =>
    obtain ⟨ts, ps, h⟩ := h
    exact ⟨st, .inr ⟨ts, ps, by rw [h]; exact pp _ _ _⟩⟩
  case exitPop st =>
    obtain ⟨ts, ps, h⟩ := h
    exact ⟨st, .inr ⟨ts, ps, by rw [h]; exact pp _ _ _⟩⟩
  case exitUnlock st f =>
    obtain ⟨ts, ps, h⟩ := h
    refine ⟨st, .inr ⟨ts, ps ++ [f], ?_⟩⟩
    refine List.IsPrefix.trans ?_ (pp st ts (ps ++ [f]))
    rw [h]; unfold progPart
    rw [List.flatMap_append, ← List.append_assoc]
    simp
  case exitCall st f =>
    obtain ⟨ts, ps, h⟩ := h
    refine ⟨st, .inr ⟨ts, ps ++ [f], ?_⟩⟩
    refine List.IsPrefix.trans ?_ (pp st ts (ps ++ [f]))
    rw [h]; unfold progPart
    rw [List.flatMap_append, ← List.append_assoc]
    simp
  case exitFini st p =>
    obtain ⟨ts, ps, k, hk, -, h⟩ := h
    exact ⟨st, .inr ⟨ts, ps, by rw [h]; exact fp _ _ _ _ hk⟩⟩
  case exitImm st =>
    obtain ⟨core, hc, h⟩ := h
    refine ⟨st, ?_⟩
    rcases hc with rfl | ⟨ts, ps, rfl⟩
    · left
      rcases h with h | ⟨-, h⟩ <;> rw [h] <;> simp
    · right
      refine ⟨ts, ps, ?_⟩
      rcases h with h | ⟨-, h⟩
      · rw [h]; exact fp _ _ _ _ (Nat.zero_le _)
      · rw [h, exitCourse_eq]; exact List.prefix_rfl

theorem mem_course {e : Exit} {l : List Ev} {x : Ev} (hx : x ∈ l) (he : x.exit? = some e) : x ∈ course e l := by
  simp [course, hx, he]

/-- What an exit call has done, at any time. -/
def CourseOk (c : Cfg) (m : Nat) (l : List Ev) (e : Exit) : Prop :=
  ∃ t st, course e l <+: [.immBegin t e st, .group t e st] ∨ ∃ ts ps, course e l <+: exitCourse c m t e st ts ps

theorem EInv.course {c : Cfg} {m : Nat} {K : Exit → Prop} {s : State} (I : EInv c m K s) {e : Exit} {x : Ev}
    (hx : x ∈ s.log) (he : x.exit? = some e) : CourseOk c m s.log e := by
  rcases I.cover e (List.ne_nil_of_mem (mem_course hx he)) with hk | ⟨t, ht⟩
  · obtain ⟨-, -, t, st, ⟨ts, h⟩ | ⟨ts, ps, h⟩⟩ := I.left e hk
    · exact ⟨t, (show Form c m t true s.log (.exitThr e st) from ⟨ts, h⟩).prefix rfl⟩
    · exact ⟨t, (show Form c m t true s.log (.exitLock e st) from ⟨ts, ps, h⟩).prefix rfl⟩
  · obtain ⟨fr, h1, h2⟩ := mem_insts.mp ht
    exact ⟨t, (I.form t fr h1).prefix h2⟩

theorem Reach.course {c : Cfg} {n m : Nat} (hok : c.Ok n m) {s : State} (h : Reach c s) {e : Exit} {x : Ev}
    (hx : x ∈ s.log) (he : x.exit? = some e) : CourseOk c m s.log e := (h.einv hok).course hx he

theorem CourseOk.exit {c : Cfg} {m : Nat} {l : List Ev} {e : Exit} (h : CourseOk c m l e) {t : Tid} {st : Int}
    (hb : .exitBegin t e st ∈ l) : ∃ ts ps, course e l <+: exitCourse c m t e st ts ps := by
  obtain ⟨t', st', h1 | ⟨ts, ps, h1⟩⟩ := h
  · have := h1.subset (mem_course hb rfl); simp at this
  · have := h1.subset (mem_course hb rfl)
    simp [exitCourse] at this
    obtain ⟨rfl, rfl⟩ := this
    exact ⟨ts, ps, h1⟩

theorem CourseOk.imm {c : Cfg} {m : Nat} {l : List Ev} {e : Exit} (h : CourseOk c m l e) {t : Tid} {st : Int}
    (hb : .immBegin t e st ∈ l) : course e l <+: [.immBegin t e st, .group t e st] := by
  obtain ⟨t', st', h1 | ⟨ts, ps, h1⟩⟩ := h
  · have := h1.subset (mem_course hb rfl); simp at this
    obtain ⟨rfl, rfl⟩ := this
    exact h1
  · have := h1.subset (mem_course hb rfl); simp [exitCourse] at this

/-- C30: at any time, what an `exit(st)` call has done is an initial part of: the thread's functions, the
program's functions, the `.fini_array` functions last to first, the end of the process with status `st`. -/
theorem C30_course {c : Cfg} {n m : Nat} (hok : c.Ok n m) {s : State} (h : Reach c s) {t : Tid} {e : Exit} {st : Int}
    (hb : .exitBegin t e st ∈ s.log) : ∃ ts ps, course e s.log <+: exitCourse c m t e st ts ps :=
  (h.course hok hb rfl).exit hb

/-- C30: an `immediate_exit(st)` call does nothing but end the process with status `st`. -/
theorem C30_immediate {c : Cfg} {n m : Nat} (hok : c.Ok n m) {s : State} (h : Reach c s) {t : Tid} {e : Exit} {st : Int}
    (hb : .immBegin t e st ∈ s.log) : course e s.log <+: [.immBegin t e st, .group t e st] :=
  (h.course hok hb rfl).imm hb

/-- C30: when the process ends with status `st`, that is the status of the last call of `exit` or
`immediate_exit` on the thread that ended it, and if it was `exit`, all of the phases have been gone
through: the thread's and the program's functions, and every `.fini_array` function once, last to first. -/
theorem C30_status {c : Cfg} {n m : Nat} (hok : c.Ok n m) {s : State} (h : Reach c s) (t : Tid) (e : Exit) (st : Int) :
    Whenever s.log (.group t e st) fun old =>
      (course e old = [.immBegin t e st] ∨ ∃ ts ps, course e old ++ [.group t e st] = exitCourse c m t e st ts ps) ∧
      ∀ e' st', .exitBegin t e' st' ∈ old ∨ .immBegin t e' st' ∈ old → e' ≤ e :=
  fun _ _ hl => have := (h.einv hok).tr.at hl; ⟨this.2.1, fun e' st' hb => (this.2.2 e' st' hb).resolve_left id⟩

/-- C30: the end of the process is the last event. -/
theorem C30_end {c : Cfg} {s : State} (h : Reach c s) (t : Tid) (e : Exit) (st : Int) (x : Ev) :
    Whenever s.log x fun old => .group t e st ∉ old :=
  fun _ _ hl => (h.onok.1.at hl).2 t e st

theorem progress_of {c : Cfg} {s : State} (S : SInv c s) (L : LInv c s) (hd : s.dead = false) {t : Tid} {fr : Frame} {rest : List Frame}
    (hs : s.stk t = fr :: rest) (hu : ∀ fn, fr ≠ .user fn) :
    (∃ s', step c s (.step t) = some s') ∨ (∃ u s', u ≠ t ∧ step c s (.step u) = some s') ∨ PFinished s.log := by
  by_cases hl : c.thread = true → s.lock ≠ none → fr ≠ .regLock ∧ ∀ e st, fr = .exitLock e st → c.programAtExit = false
  · exact .inl (frame_progress hd hs hu hl)
  · obtain ⟨hc, hl⟩ := Classical.not_imp.mp hl
    obtain ⟨hk, hl⟩ := Classical.not_imp.mp hl
    by_cases hf : PFinished s.log
    · exact .inr (.inr hf)
    · cases hk' : s.lock with
      | none => exact absurd hk' hk
      | some u =>
        obtain ⟨fr', rest', h1, h2⟩ := L.holder S hc hk' hf
        right; left
        have hp : ∃ s', step c s (.step u) = some s' :=
          frame_progress hd h1 (by rintro fn rfl; cases h2) (fun _ _ => ⟨(by rintro rfl; cases h2), (by rintro e st rfl; cases h2)⟩)
        obtain ⟨s', hp⟩ := hp
        refine ⟨u, s', ?_, hp⟩
        rintro rfl
        rw [hs] at h1; injection h1 with h1 _; subst h1
        apply hl
        exact ⟨(by rintro rfl; cases h2), (by rintro e st rfl; cases h2)⟩

/-- C30: an `exit` or `at_exit` call that is running origin's own code can always go on, except while it waits
for the registration lock; and then another thread holds the lock, and that thread can go on, or some thread
has finished the program's functions and is ending the process. -/
theorem C30_progress {c : Cfg} {s : State} (h : Reach c s) (hd : s.dead = false) {t : Tid} {fr : Frame} {rest : List Frame}
    (hs : s.stk t = fr :: rest) (hu : ∀ fn, fr ≠ .user fn) :
    (∃ s', step c s (.step t) = some s') ∨ (∃ u s', u ≠ t ∧ step c s (.step u) = some s') ∨ PFinished s.log :=
  progress_of h.sinv h.linv hd hs hu

/-! ## C31 -/

theorem prefix_mid {α : Type} {pre A B : List α} {d x : α} (h : pre <+: A ++ d :: B) (hx : x ∈ pre) (hA : x ∉ A) :
    d ∈ pre := by
  obtain ⟨r, hr⟩ := h
  rcases List.append_eq_append_iff.mp hr with ⟨a, h1, h2⟩ | ⟨a, h1, h2⟩
  · exact absurd (by rw [h1]; exact List.mem_append_left _ hx) hA
  · rw [h1]
    cases a with
    | nil => rw [h1] at hx; simp at hx; exact absurd hx hA
    | cons b a =>
      injection h2 with h2 _
      subst h2; simp

/-- With threads and program `at_exit` support, only one `exit` call ever gets past the program's
functions. -/
theorem pdone_unique {c : Cfg} {l : List Ev} (this : TraceOk (POk c) l) (h1 : c.thread = true) (h2 : c.programAtExit = true)
    {t t' : Tid} {e e' : Exit} (a : .pDone t e ∈ l) (b : .pDone t' e' ∈ l) : e = e' := by
  induction l with
  | nil => cases a
  | cons x xs ih =>
    rcases List.mem_cons.mp a with a' | a' <;> rcases List.mem_cons.mp b with b' | b'
    · rw [← a'] at b'; injection b' with _ hb; exact hb.symm
    · subst a'; exact absurd ⟨_, _, b'⟩ (this.1.2.2 h1 h2)
    · subst b'; exact absurd ⟨_, _, a'⟩ (this.1.2.2 h1 h2)
    · exact ih this.2 a' b'

theorem exit_first_of {c : Cfg} {m : Nat} {l : List Ev} {t : Tid} {e : Exit} {st : Int}
    (hC : ∃ ts ps, course e l <+: exitCourse c m t e st ts ps)
    (x : Ev) (hx : (∃ f, x = .pTake t e f) ∨ x = .pDone t e ∨ (∃ p, x = .fini t e p) ∨ x = .group t e st) :
    Whenever l x fun old => .tDone t e ∈ old := by
  intro newer older hl
  obtain ⟨ts, ps, hp⟩ := hC
  have key : ∀ (A B p q : List Ev) (d : Ev), p ++ x :: q <+: A ++ d :: B → x ∉ A → x ≠ d → d ∈ p := by
    intro A
    induction A with
    | nil =>
      intro B p q d hpre _ hne
      cases p with
      | nil => obtain ⟨r, hr⟩ := hpre; simp at hr; exact absurd hr.1 hne
      | cons y p => obtain ⟨r, hr⟩ := hpre; simp at hr; simp [hr.1]
    | cons a A ih =>
      intro B p q d hpre hA hne
      cases p with
      | nil => obtain ⟨r, hr⟩ := hpre; simp at hr; exact absurd (hr.1 ▸ List.mem_cons_self) hA
      | cons y p =>
        obtain ⟨r, hr⟩ := hpre
        simp at hr
        exact List.mem_cons_of_mem _ (ih B p q d ⟨r, by simp [hr.2]⟩ (fun h => hA (List.mem_cons_of_mem _ h)) hne)
  have hxe : x.exit? = some e := by rcases hx with ⟨f, rfl⟩ | rfl | ⟨p, rfl⟩ | rfl <;> rfl
  have hc : course e l = course e older ++ x :: course e newer := by
    rw [hl]; simp [course, List.filter_append, List.filter_cons, hxe]
  rw [hc] at hp
  unfold exitCourse at hp
  simp only [List.append_assoc] at hp
  rw [← List.append_assoc, List.singleton_append (l := _ ++ _)] at hp
  have := key _ _ _ _ _ hp (by rcases hx with ⟨f, rfl⟩ | rfl | ⟨p, rfl⟩ | rfl <;> simp) (by rcases hx with ⟨f, rfl⟩ | rfl | ⟨p, rfl⟩ | rfl <;> simp)
  simp [course] at this
  exact this.1

/-- C28: in a call of `exit` the thread's own functions come first: when the call takes one of the program's functions off the list, has finished them,
calls a `.fini_array` function or ends the process, it has been through the thread's functions, so every function the thread registered before it had
been through them has been called (`C28_exit_all_called`). -/
theorem C28_exit_first {c : Cfg} {n m : Nat} (hok : c.Ok n m) {s : State} (h : Reach c s) {t : Tid} {e : Exit} {st : Int}
    (hb : .exitBegin t e st ∈ s.log) (x : Ev) (hx : (∃ f, x = .pTake t e f) ∨ x = .pDone t e ∨ (∃ p, x = .fini t e p) ∨ x = .group t e st) :
    Whenever s.log x fun old => .tDone t e ∈ old := exit_first_of (C30_course hok h hb) x hx

theorem fini_once_pu {c : Cfg} {n m : Nat} (hok : c.Ok n m) {l : List Ev}
    (hC : ∀ {e x}, x ∈ l → x.exit? = some e → CourseOk c m l e) (pu : ∀ {t t' e e'}, .pDone t e ∈ l → .pDone t' e' ∈ l → e = e') : finiCalls l <+: finiOrder c m ∧ (finiCalls l).Nodup := by
  have main : finiCalls l <+: finiOrder c m := by
    by_cases hex : ∃ t e p, Ev.fini t e p ∈ l
    · obtain ⟨t, e, p, hp⟩ := hex
      have dn : ∀ t e p, Ev.fini t e p ∈ l → ∃ t', Ev.pDone t' e ∈ l := by
        intro t e p hp
        obtain ⟨t', st', h1 | ⟨ts, ps, h1⟩⟩ := hC hp rfl
        · have := h1.subset (mem_course hp rfl); simp at this
        · rw [exitCourse, List.append_assoc, List.append_assoc, List.append_assoc] at h1
          have := prefix_mid (A := [.exitBegin t' e st'] ++ ts.map (.tCall t' (some e)) ++ [.tDone t' e]
            ++ ps.flatMap (fun f => [.pTake t' e f, .pCall t' e f])) (d := Ev.pDone t' e) (by simpa using h1) (mem_course hp rfl) (by simp)
          exact ⟨t', by simp [course] at this; exact this.1⟩
      obtain ⟨t0, hd0⟩ := dn t e p hp
      have same : ∀ x ∈ l, x.finiSlot? ≠ none → x.exit? = some e := by
        intro x hx hn
        cases x <;> simp [Ev.finiSlot?] at hn
        rename_i t' e' p'
        obtain ⟨t1, hd1⟩ := dn t' e' p' hx
        rw [pu hd0 hd1]; rfl
      have hfc : finiCalls l = (course e l).filterMap Ev.finiSlot? := by
        unfold finiCalls course
        rw [List.filterMap_reverse]
        congr 1
        clear hC pu hd0 hp dn
        induction l with
        | nil => rfl
        | cons x xs ih =>
          have ih := ih (fun y hy => same y (List.mem_cons_of_mem _ hy))
          rw [List.filter_cons]
          split
          · rw [List.filterMap_cons, List.filterMap_cons, ih]
          · next hne =>
            rw [List.filterMap_cons]
            cases hx : x.finiSlot? with
            | none => exact ih
            | some q => exact absurd (by simp [same x List.mem_cons_self (by simp [hx])]) hne
      rw [hfc]
      obtain ⟨t', st', h3 | ⟨ts, ps, h3⟩⟩ := hC hp rfl
      · have := h3.subset (mem_course hp rfl); simp at this
      · have h4 := h3.filterMap Ev.finiSlot?
        have h5 : (exitCourse c m t' e st' ts ps).filterMap Ev.finiSlot? = finiOrder c m := by
          simp [exitCourse, List.filterMap_append, List.filterMap_cons, List.filterMap_map, List.filterMap_flatMap, Ev.finiSlot?,
            finiOrder, Function.comp_def, List.flatMap_eq_nil_iff]
          have q1 : List.filterMap (fun _ => (none : Option Nat)) ts = [] := by simp
          have q2 : List.flatMap (fun _ => ([] : List Nat)) ps = [] := by simp
          rw [q1, q2]; rfl
        rw [h5] at h4; exact h4
    · have : finiCalls l = [] := by
        unfold finiCalls
        rw [List.reverse_eq_nil_iff, List.filterMap_eq_nil_iff]
        intro x hx
        cases x <;> simp [Ev.finiSlot?]
        exact hex ⟨_, _, _, hx⟩
      rw [this]; exact List.nil_prefix
  refine ⟨main, List.Nodup.sublist main.sublist ?_⟩
  unfold finiOrder
  have := hok.ws
  unfold List.Nodup
  rw [List.map_reverse, List.pairwise_reverse, List.pairwise_map]
  refine List.Pairwise.imp (fun {a b} hab => ?_) (List.nodup_range (n := m))
  intro heq
  have : a * c.ws = b * c.ws := by omega
  exact hab (Nat.eq_of_mul_eq_mul_right hok.ws this)

theorem fini_once_of {c : Cfg} {n m : Nat} (hok : c.Ok n m) {l : List Ev} (P : TraceOk (POk c) l)
    (hC : ∀ {e x}, x ∈ l → x.exit? = some e → CourseOk c m l e) (h1 : c.thread = true)
    (h2 : c.programAtExit = true) : finiCalls l <+: finiOrder c m ∧ (finiCalls l).Nodup :=
  fini_once_pu hok hC fun a b => pdone_unique P h1 h2 a b

/-- C31 (with threads and program `at_exit` support): however many threads call `exit`, concurrently or not,
the `.fini_array` functions that have been called are, in order, an initial part of the array read from the
last slot to the first: each is called at most once. -/
theorem C31_fini_once {c : Cfg} {n m : Nat} (hok : c.Ok n m) {s : State} (h : Reach c s) (h1 : c.thread = true)
    (h2 : c.programAtExit = true) : finiCalls s.log <+: finiOrder c m ∧ (finiCalls s.log).Nodup :=
  fini_once_of hok h.pinv.tr (fun hx he => h.course hok hx he) h1 h2

/-! ## C32 -/

/-- C32 (with threads): once an `exit` call has finished the program's functions, no `program::at_exit` call
registers anything or returns. -/
theorem C32_no_late_return {c : Cfg} {s : State} (h : Reach c s) (hc : c.thread = true) (t : Tid) (f : FnId) :
    Whenever s.log (.pReg t f) (fun old => ¬ PFinished old) ∧
      Whenever s.log (.pRegRet t f) (fun old => .pReg t f ∈ old ∧ ¬ PFinished old) :=
  ⟨fun _ _ hl => (h.pinv.tr.at hl).2 hc, fun _ _ hl => have := h.winv.tr.at hl; ⟨this.1, this.2 hc⟩⟩

theorem no_drop_of {c : Cfg} {s : State} (W : WInv c s) (P : PInv c s) (hc : c.thread = true) (hf : PFinished s.log) {t : Tid} {f : FnId}
    (hr : .pRegRet t f ∈ s.log) : PTaken s.log f := by
  obtain ⟨u, e, hd⟩ := hf
  obtain ⟨newer, older, hl⟩ := List.append_of_mem hd
  have hreg : PRegd s.log f := by
    obtain ⟨old, h1, h2⟩ := W.tr.mem hr
    exact ⟨t, h2 _ h1.1⟩
  obtain ⟨v, hv⟩ := hreg
  have hold : .pReg v f ∈ older := by
    rw [hl] at hv
    rcases List.mem_append.mp hv with hv | hv
    · obtain ⟨a, b, hab⟩ := List.append_of_mem hv
      have : ¬ PFinished (b ++ .pDone u e :: older) :=
        (P.tr.at (newer := a) (e := .pReg v f) (by rw [hl, hab]; simp)).2 hc
      exact absurd ⟨u, e, by simp⟩ this
    · simpa using hv
  obtain ⟨t', e', h3⟩ := (P.tr.at hl).1 f ⟨v, hold⟩
  exact ⟨t', e', by rw [hl]; simp [h3]⟩

/-- C32 (with threads): a function whose registration was reported as done, at any time, has been taken by an
`exit` call once one has finished with the program's functions. -/
theorem C32_no_drop {c : Cfg} {s : State} (h : Reach c s) (hc : c.thread = true) (hf : PFinished s.log) {t : Tid} {f : FnId}
    (hr : .pRegRet t f ∈ s.log) : PTaken s.log f := no_drop_of h.winv h.pinv hc hf hr

theorem other_stk {c : Cfg} {s s' : State} {x : Action} {t : Tid} (h : step c s x = some s') (hx : x.tid ≠ t) (hn : t ≠ s.nextT) :
    s'.stk t = s.stk t := by
  have hx' : ¬ t = x.tid := fun h => hx h.symm
  unfold step at h
  split at h
  · cases h
  · split at h
    · cases h
    · rename_i fn rest hs
      unfold userStep at h
      split at h
      · split at h <;> cases h; simp [State.ev, State.setStk, hn]
      · split at h <;> cases h; rfl
      · split at h <;> cases h; simp [State.setStk, hx']
      · cases h; simp [State.beginExit, State.ev, State.setStk, hx']
      · cases h; simp [State.ev, State.setStk, hx']
      · split at h <;> cases h <;> simp [State.beginExit, State.ev, State.setStk, hx']
      · cases h
    · split at h
      · rename_i fr rest hs hnu hst
        have acq : ∀ s1, s.acquire c x.tid = some s1 → s1.stk = s.stk := fun s1 h => (acquire_fields h).1
        have rel := (release_fields c s).1
        unfold frameStep at h
        split at h <;> (try split at h) <;> (try (simp only [Option.map_eq_some_iff] at h; obtain ⟨s1, h1, h⟩ := h; subst h; simp [State.setStk, hx', acq s1 h1])) <;>
          cases h <;> simp [State.ev, State.setStk, State.setTd, hx', rel]
      · cases h

/-- C32 (with threads): a `program::at_exit` call that has not got the lock by then blocks, for ever. -/
theorem C32_blocks {c : Cfg} (hc : c.thread = true) (hp : c.programAtExit = true) {t : Tid} {rest : List Frame}
    (acts : List Action) : ∀ {s s' : State}, Reach c s → PFinished s.log → s.stk t = .regLock :: rest →
    run c s acts = some s' → s'.stk t = .regLock :: rest ∧ step c s' (.step t) = none := by
  have stuck : ∀ {s : State}, Reach c s → PFinished s.log → s.stk t = .regLock :: rest → step c s (.step t) = none := by
    intro s h hf hs
    obtain ⟨u, e, hd⟩ := hf
    have := h.linv.lk3 hc hp u e hd
    simp [step, Action.tid, hs, frameStep, State.acquire, hc, this]
  induction acts with
  | nil =>
    intro s s' h hf hs hr
    simp [run] at hr; subst hr
    exact ⟨hs, stuck h hf hs⟩
  | cons x xs ih =>
    intro s s' h hf hs hr
    simp only [run, Option.bind_eq_some_iff] at hr
    obtain ⟨s1, h1, h2⟩ := hr
    obtain ⟨w, -, -, -, evs, hl, -⟩ := (step_tr h1).2.eff
    refine ih (.step h h1) ?_ ?_ h2
    · obtain ⟨u, e, hd⟩ := hf; exact ⟨u, e, by rw [hl]; exact List.mem_append_right _ hd⟩
    · by_cases hxt : x.tid = t
      · exfalso
        have hx : step c s x ≠ some s1 := by
          by_cases hst : x = .step t
          · subst hst; rw [stuck h hf hs]; simp
          · unfold step
            rw [hxt, hs]
            simp [hst]
        exact hx h1
      · have key : t ≠ s.nextT := by
          rintro rfl
          rw [h.sinv.new _ (Nat.le_refl _)] at hs; cases hs
        rw [other_stk h1 hxt key]; exact hs

/-! ## C34 -/

theorem startup_of {c : Cfg} {n : Nat} {s : State} (B : BInv c n s) :
    (∃ st, boots s.log <+: bootCourse c n st) ∧ ∀ st, .mainRet st ∈ s.log → boots s.log = bootCourse c n st := by
  obtain ⟨b, h1, h2⟩ := B.base
  have memb : ∀ st, Ev.mainRet st ∈ s.log → Ev.mainRet st ∈ boots s.log := by intro st h; simp [boots, h, Ev.boot]
  have noret : ∀ st k, Ev.mainRet st ∉ [Ev.runtimeInit] ++ ctors c k := by intro st k; simp [ctors]
  have fin : ∀ {st}, boots s.log = [.runtimeInit] ++ ctors c n ++ [.main c.args, .mainRet st] →
      (∃ st, boots s.log <+: bootCourse c n st) ∧ ∀ st, .mainRet st ∈ s.log → boots s.log = bootCourse c n st := by
    intro st hb
    have hb' : boots s.log = bootCourse c n st := hb
    refine ⟨⟨st, by rw [hb']; exact List.prefix_rfl⟩, fun st' h' => ?_⟩
    have := memb st' h'
    rw [hb'] at this
    simp [bootCourse] at this
    subst this; exact hb'
  have pre : ∀ k, k ≤ n → [Ev.runtimeInit] ++ ctors c k <+: bootCourse c n 0 := by
    intro k hk
    unfold bootCourse ctors
    obtain ⟨j, rfl⟩ : ∃ j, n = k + j := ⟨n - k, by omega⟩
    rw [List.range_add, List.map_append]
    simp only [List.append_assoc]
    rw [← List.append_assoc]
    exact List.prefix_append _ _
  cases b
  case entry =>
    obtain ⟨hl, -⟩ := h2
    rw [hl]; exact ⟨⟨0, List.nil_prefix⟩, by simp⟩
  case init p =>
    obtain ⟨k, hk, -, hb⟩ := h2
    rw [hb]
    refine ⟨⟨0, pre k hk⟩, fun st h' => ?_⟩
    have := memb st h'; rw [hb] at this
    exact absurd this (noret _ _)
  case user f =>
    cases f
    case main =>
      have h2 : boots s.log = _ := h2
      rw [h2]
      refine ⟨⟨0, ?_⟩, fun st h' => ?_⟩
      · unfold bootCourse ctors; simp
      · have := memb st h'; rw [h2] at this
        simp [ctors] at this
    all_goals (obtain ⟨-, st, hb⟩ := h2; exact fin hb)
  all_goals (obtain ⟨-, st, hb⟩ := h2; exact fin hb)

/-- C34: at any time, what program start has done is an initial part of: initialise the runtime, call each
`.init_array` function once, in order, with the arguments, call `origin_main` once with the arguments; and
once it has returned `st`, all of that has been done. -/
theorem C34_startup {c : Cfg} {n m : Nat} (hok : c.Ok n m) {s : State} (h : Reach c s) :
    (∃ st, boots s.log <+: bootCourse c n st) ∧ ∀ st, .mainRet st ∈ s.log → boots s.log = bootCourse c n st := startup_of (h.binv hok)

/-- C34: the runtime is initialised before anything else happens. -/
theorem C34_first {c : Cfg} {n m : Nat} (hok : c.Ok n m) {s : State} (h : Reach c s) :
    s.log = [] ∨ s.log.getLast? = some .runtimeInit := (h.binv hok).first

/-- C34: the next thing that happens after `origin_main` has returned `st` is a call of `exit(st)` on the main
thread. -/
theorem C34_exits_with_result {c : Cfg} {n m : Nat} (hok : c.Ok n m) {s : State} (h : Reach c s) (newer older : List Ev) (st : Int)
    (hl : s.log = newer ++ .mainRet st :: older) : ∃ newer' e, newer = newer' ++ [.exitBegin 0 e st] :=
  (h.binv hok).mr newer older st hl

/-! ## Concrete histories: the hypotheses are met, and what does not hold -/

/-- A run from the start with the properties `P`. -/
theorem reach_run {c : Cfg} (xs : List Action) : ∀ {s s' : State}, Reach c s → run c s xs = some s' → Reach c s' := by
  induction xs with
  | nil => intro s s' R h; simp [run] at h; subst h; exact R
  | cons x xs ih =>
    intro s s' R h
    simp only [run, Option.bind_eq_some_iff] at h
    obtain ⟨s1, h1, h2⟩ := h
    exact ih (.step R h1) h2

theorem reach_with {c : Cfg} (xs : List Action) (P : State → Bool) (h : (run c init xs).map P = some true) :
    ∃ s, Reach c s ∧ P s = true := by
  rw [Option.map_eq_some_iff] at h
  obtain ⟨s, h1, h2⟩ := h
  exact ⟨s, reach_run xs .init h1, h2⟩

/-- All features; two `.init_array` and two `.fini_array` slots. -/
def demo : Cfg where
  thread := true
  threadAtExit := true
  programAtExit := true
  initArray := true
  finiArray := true
  initStart := 100
  initEnd := 116
  finiStart := 200
  finiEnd := 216
  ws := 8
  args := ⟨1, 1000, 1016⟩

theorem demo_ok : demo.Ok 2 2 := by constructor <;> decide

/-- Step thread `t` of origin's code `n` times. -/
def steps (t : Tid) (n : Nat) : List Action := List.replicate n (.step t)

/-- Constructors (one registers function 0 for the thread), then main: registers 1 and 2 for the program,
creates thread 1, which registers 3 for itself and 4 for the program; thread 1 exits; main returns 7; function 2
registers 5 for the program while it runs. -/
def demoRun : List Action :=
  [.step 0, .step 0, .regThr 0, .ret 0 0, .step 0, .ret 0 0, .step 0, .regProg 0] ++ steps 0 3 ++ [.regProg 0] ++ steps 0 3 ++
  [.spawn 0, .regThr 1, .regProg 1] ++ steps 1 3 ++ [.ret 1 0, .step 1, .ret 1 0, .step 1, .ret 0 7, .step 0, .ret 0 0] ++
  steps 0 5 ++ [.ret 0 0] ++ steps 0 4 ++ [.regProg 0] ++ steps 0 3 ++ [.ret 0 0] ++ steps 0 4 ++ [.ret 0 0] ++ steps 0 4 ++
  [.ret 0 0] ++ steps 0 3 ++ [.ret 0 0, .step 0, .ret 0 0] ++ steps 0 2

/-- The whole of it, from the first event to the last. -/
example : ∃ s, Reach demo s ∧ s.log.reverse =
    [.runtimeInit, .ctor 100 demo.args, .tReg 0 0, .ctor 108 demo.args, .main demo.args,
      .pReg 0 1, .pRegRet 0 1, .pReg 0 2, .pRegRet 0 2, .spawned 1, .tReg 1 3, .pReg 1 4, .pRegRet 1 4,
      .tCall 1 none 3, .released 1, .mainRet 7, .exitBegin 0 0 7, .tCall 0 (some 0) 0, .tDone 0 0,
      .pTake 0 0 4, .pCall 0 0 4, .pTake 0 0 2, .pCall 0 0 2, .pReg 0 5, .pRegRet 0 5, .pTake 0 0 5, .pCall 0 0 5,
      .pTake 0 0 1, .pCall 0 0 1, .pDone 0 0, .fini 0 0 208, .fini 0 0 200, .group 0 0 7] := by
  obtain ⟨s, h1, h2⟩ := reach_with (c := demo) demoRun (fun s => decide (s.log.reverse =
    [.runtimeInit, .ctor 100 demo.args, .tReg 0 0, .ctor 108 demo.args, .main demo.args,
      .pReg 0 1, .pRegRet 0 1, .pReg 0 2, .pRegRet 0 2, .spawned 1, .tReg 1 3, .pReg 1 4, .pRegRet 1 4,
      .tCall 1 none 3, .released 1, .mainRet 7, .exitBegin 0 0 7, .tCall 0 (some 0) 0, .tDone 0 0,
      .pTake 0 0 4, .pCall 0 0 4, .pTake 0 0 2, .pCall 0 0 2, .pReg 0 5, .pRegRet 0 5, .pTake 0 0 5, .pCall 0 0 5,
      .pTake 0 0 1, .pCall 0 0 1, .pDone 0 0, .fini 0 0 208, .fini 0 0 200, .group 0 0 7])) (by decide)
  exact ⟨s, h1, of_decide_eq_true h2⟩

/-- Up to `origin_main`, with one of its functions registered. -/
def toMain : List Action := [.step 0, .step 0, .ret 0 0, .step 0, .ret 0 0, .step 0]

/-- C28, the limit of what holds: a function registered with `thread::at_exit` by a function the program
registered, when `exit` on that thread has already been through the thread's functions, is not called. -/
theorem C28_late_registration_not_called : ∃ s, Reach demo s ∧ .tReg 0 1 ∈ s.log ∧ ¬ TCalled s.log 0 1 ∧ .group 0 0 7 ∈ s.log := by
  obtain ⟨s, h1, h2⟩ := reach_with (c := demo) (toMain ++ [.regProg 0] ++ steps 0 3 ++ [.ret 0 7] ++ steps 0 5 ++
    [.regThr 0, .ret 0 0] ++ steps 0 3 ++ [.ret 0 0, .step 0, .ret 0 0] ++ steps 0 2)
    (fun s => decide (.tReg 0 1 ∈ s.log ∧ .group 0 0 7 ∈ s.log) && s.log.all (fun x => match x with | .tCall .. => false | _ => true)) (by decide)
  simp only [Bool.and_eq_true, decide_eq_true_eq, List.all_eq_true] at h2
  refine ⟨s, h1, h2.1.1, ?_, h2.1.2⟩
  rintro ⟨o, ho⟩
  have := h2.2 _ ho
  cases this

/-- C31 needs program `at_exit` support: without it, `.fini_array` functions are called twice when two threads
call `exit`. -/
theorem C31_without_at_exit_false : ∃ s, Reach { demo with programAtExit := false } s ∧ finiCalls s.log = [208, 208] := by
  obtain ⟨s, h1, h2⟩ := reach_with (c := { demo with programAtExit := false }) (toMain ++ [.spawn 0, .exit 0 1, .exit 1 2] ++ steps 0 3 ++ steps 1 3)
    (fun s => decide (finiCalls s.log = [208, 208])) (by decide)
  exact ⟨s, h1, of_decide_eq_true h2⟩

/-- C31 needs thread support too: without it, a `.fini_array` function that calls `exit` has them called
again. -/
theorem C31_without_thread_false : ∃ s, Reach { demo with thread := false, threadAtExit := false } s ∧ finiCalls s.log = [208, 208] := by
  obtain ⟨s, h1, h2⟩ := reach_with (c := { demo with thread := false, threadAtExit := false }) (toMain ++ [.exit 0 1] ++ steps 0 4 ++ [.exit 0 2] ++ steps 0 4)
    (fun s => decide (finiCalls s.log = [208, 208])) (by decide)
  exact ⟨s, h1, of_decide_eq_true h2⟩

/-- C32 needs thread support: without it, a function registered with `program::at_exit` by a `.fini_array`
function is dropped although the call returned. -/
theorem C32_without_thread_false : ∃ s, Reach { demo with thread := false, threadAtExit := false } s ∧
    .pRegRet 0 0 ∈ s.log ∧ .group 0 0 7 ∈ s.log ∧ ¬ PTaken s.log 0 := by
  obtain ⟨s, h1, h2⟩ := reach_with (c := { demo with thread := false, threadAtExit := false })
    (toMain ++ [.ret 0 7] ++ steps 0 4 ++ [.regProg 0] ++ steps 0 3 ++ [.ret 0 0, .step 0, .ret 0 0] ++ steps 0 2)
    (fun s => decide (.pRegRet 0 0 ∈ s.log ∧ .group 0 0 7 ∈ s.log) && s.log.all (fun x => match x with | .pTake .. => false | _ => true)) (by decide)
  simp only [Bool.and_eq_true, decide_eq_true_eq, List.all_eq_true] at h2
  refine ⟨s, h1, h2.1.1, h2.1.2, ?_⟩
  rintro ⟨t, e, h⟩
  have := h2.2 _ h
  cases this

/-- Two threads exit at once; the program's functions are shared between them: thread 1 is still running one
when the process ends.  One that blocks on `at_exit` after the program's functions are finished: the
hypotheses of `C32_blocks` are met. -/
example : ∃ s, Reach demo s ∧ PFinished s.log ∧ s.stk 1 = [.regLock, .user (.pdtor 1), .exitLock 1 2, .user .start] ∧
    .pTake 0 0 0 ∈ s.log ∧ .pTake 1 1 1 ∈ s.log ∧ s.dead = false := by
  obtain ⟨s, h1, h2⟩ := reach_with (c := demo) (toMain ++ [.regProg 0] ++ steps 0 3 ++ [.regProg 0] ++ steps 0 3 ++
    [.spawn 0, .exit 0 1, .exit 1 2] ++ steps 1 5 ++ steps 0 5 ++ [.ret 0 0] ++ steps 0 2 ++ [.regProg 1])
    (fun s => decide (.pDone 0 0 ∈ s.log ∧ s.stk 1 = [.regLock, .user (.pdtor 1), .exitLock 1 2, .user .start] ∧
    .pTake 0 0 0 ∈ s.log ∧ .pTake 1 1 1 ∈ s.log ∧ s.dead = false)) (by decide)
  have h2 := of_decide_eq_true h2
  exact ⟨s, h1, ⟨0, 0, h2.1⟩, h2.2⟩

end Origin.Proc
