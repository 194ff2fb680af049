import Verif.Proof.Signals
import Verif.Props.Process
/-!
# C77: signal handlers do not disturb start, `at_exit` and `exit`
-/

namespace Origin.Proc

variable {c : Cfg} {g : SState}

/-- Histories with signals at any moments, whose handlers do what `SState.Allowed` says. -/
abbrev SReachA (c : Cfg) (g : SState) : Prop := SReach c SState.Allowed g

/-- A handler is running on thread `t`: its own code, not a function it called. -/
def InHandler (g : SState) (t : Tid) : Prop := ∃ fn ls, g.hnd t = [.user fn] :: ls

/-- **C77 (histories).** For every history with signals there is one without in which the same things happen in the same order, and after which the same functions are
still registered and the lock is in the same state. -/
theorem C77_same_history (h : SReachA c g) :
    ∃ s, Reach c s ∧ s.log = g.s.log ∧ s.dtors = g.s.dtors ∧ s.tdtors = g.s.tdtors ∧ s.lock = g.s.lock ∧
      (g.s.dead = true → s.dead = true ∨ g.killed ≠ none) ∧ ∀ t, g.hnd t = [] → s.stk t = g.s.stk t := by
  refine ⟨g.flat, (h.inv fun _ _ h => h).reach, rfl, rfl, rfl, rfl, fun hd => ?_, fun t ht => by simp [flat_stk, ht]⟩
  cases hk : g.killed with
  | none => exact .inl (by simp [SState.flat, hk, hd])
  | some v => exact .inr (by simp)

/-- **C77 (a thread's functions).** They are called at most once each, newest first. -/
theorem C77_thread_lifo (h : SReachA c g) (t : Tid) (o : Option Exit) (f : FnId) :
    Whenever g.s.log (.tCall t o f) fun old =>
      .tReg t f ∈ old ∧ ¬ TCalled old t f ∧ ∀ g, Later old (.tReg t g) (.tReg t f) → TCalled old t g := by
  obtain ⟨s, hr, hl, -⟩ := C77_same_history h
  exact hl ▸ C28_lifo hr t o f

/-- **C77 (a thread's functions).** When a thread has exited, all of them have been called, and nothing happens on it any more. -/
theorem C77_thread_all_called (h : SReachA c g) {t : Tid} :
    (∀ f, .released t ∈ g.s.log → .tReg t f ∈ g.s.log → TCalled g.s.log t f) ∧
    ∀ x : Ev, x.on = some t → Whenever g.s.log x fun old => .released t ∉ old := by
  obtain ⟨s, hr, hl, -⟩ := C77_same_history h
  exact ⟨fun f h1 h2 => hl ▸ C28_all_called hr (hl ▸ h1) (hl ▸ h2), fun x hx => hl ▸ C28_before_release hr hx⟩

/-- **C77 (the program's functions).** They are taken newest first, called once, by the `exit` call that took them. -/
theorem C77_program_once (h : SReachA c g) (t : Tid) (e : Exit) (f : FnId) :
    (Whenever g.s.log (.pTake t e f) fun old =>
      PRegd old f ∧ ¬ PTaken old f ∧ ∀ g t₁ t₂, Later old (.pReg t₁ g) (.pReg t₂ f) → PTaken old g) ∧
    Whenever g.s.log (.pCall t e f) fun old => .pTake t e f ∈ old ∧ ¬ PCalled old f := by
  obtain ⟨s, hr, hl, -⟩ := C77_same_history h
  exact ⟨hl ▸ C29_lifo hr t e f, hl ▸ C29_called_once hr t e f⟩

/-- **C77 (the program's functions).** When an `exit` call has finished them, all have been taken, and those this thread took have been called. -/
theorem C77_program_all (h : SReachA c g) (t : Tid) (e : Exit) :
    Whenever g.s.log (.pDone t e) fun old =>
      (∀ f, PRegd old f → PTaken old f) ∧ ∀ e' f, .pTake t e' f ∈ old → .pCall t e' f ∈ old := by
  obtain ⟨s, hr, hl, -⟩ := C77_same_history h
  exact hl ▸ C29_all_taken hr t e

/-- **C77 (`exit`).** What an `exit(v)` call has done is an initial part of: the thread's functions, the program's, the `.fini_array` functions last to first, the end of
the process with status `v`. -/
theorem C77_course {n m : Nat} (hok : c.Ok n m) (h : SReachA c g) {t : Tid} {e : Exit} {v : Int} (hb : .exitBegin t e v ∈ g.s.log) :
    ∃ ts ps, course e g.s.log <+: exitCourse c m t e v ts ps := by
  obtain ⟨s, hr, hl, -⟩ := C77_same_history h
  exact hl ▸ C30_course hok hr (hl ▸ hb)

/-- **C77 (`exit`).** When `exit` or `immediate_exit`, called outside handlers' own code, ends the process, all phases have been gone through, and the status is that of the last call on that
thread; it is the last event. -/
theorem C77_status {n m : Nat} (hok : c.Ok n m) (h : SReachA c g) (t : Tid) (e : Exit) (v : Int) :
    (Whenever g.s.log (.group t e v) fun old =>
      (course e old = [.immBegin t e v] ∨ ∃ ts ps, course e old ++ [.group t e v] = exitCourse c m t e v ts ps) ∧
      ∀ e' v', .exitBegin t e' v' ∈ old ∨ .immBegin t e' v' ∈ old → e' ≤ e) ∧
    ∀ x, Whenever g.s.log x fun old => .group t e v ∉ old := by
  obtain ⟨s, hr, hl, -⟩ := C77_same_history h
  exact ⟨hl ▸ C30_status hok hr t e v, fun x => hl ▸ C30_end hr t e v x⟩

/-- **C77 (`.fini_array`).** -/
theorem C77_fini_once {n m : Nat} (hok : c.Ok n m) (h : SReachA c g) (h1 : c.thread = true) (h2 : c.programAtExit = true) :
    finiCalls g.s.log <+: finiOrder c m ∧ (finiCalls g.s.log).Nodup := by
  obtain ⟨s, hr, hl, -⟩ := C77_same_history h
  exact hl ▸ C31_fini_once hok hr h1 h2

/-- **C77 (registrations).** -/
theorem C77_no_drop (h : SReachA c g) (hc : c.thread = true) :
    (∀ t f, Whenever g.s.log (.pRegRet t f) fun old => .pReg t f ∈ old ∧ ¬ PFinished old) ∧
    (PFinished g.s.log → ∀ t f, .pRegRet t f ∈ g.s.log → PTaken g.s.log f) := by
  obtain ⟨s, hr, hl, -⟩ := C77_same_history h
  exact ⟨fun t f => hl ▸ (C32_no_late_return hr hc t f).2, fun hf t f hx => hl ▸ C32_no_drop hr hc (hl ▸ hf) (hl ▸ hx)⟩

/-- **C77 (start).** -/
theorem C77_startup {n m : Nat} (hok : c.Ok n m) (h : SReachA c g) :
    (∃ v, boots g.s.log <+: bootCourse c n v) ∧ ∀ v, .mainRet v ∈ g.s.log → boots g.s.log = bootCourse c n v := by
  obtain ⟨s, hr, hl, -⟩ := C77_same_history h
  exact hl ▸ C34_startup hok hr

/-- **C77 (delivery).** A handler may start on any living thread at any moment; it changes nothing; and when it returns, the interrupted code goes on from where it was. -/
theorem C77_return (hd : g.s.dead = false) {t : Tid} (ht : g.cur t ≠ []) (v : Int) :
    ∃ g', sstep c g (.signal t) = some g' ∧ InHandler g' t ∧ g'.s = g.s ∧ (∀ u, u ≠ t → g'.hnd u = g.hnd u) ∧ g'.killed = g.killed ∧
      sstep c g' (.act (.ret t v)) = some g := by
  refine ⟨g.setHnd t ([.user handlerFn] :: g.hnd t), by simp [sstep, hd, ht], ⟨handlerFn, g.hnd t, by simp [SState.setHnd]⟩, rfl,
    fun u hu => by simp [SState.setHnd, hu], rfl, ?_⟩
  have e : Proc.step c (g.s.setStk t [.user handlerFn]) (.ret t v) = some (g.s.setStk t []) := by
    rw [step_userTop (fn := handlerFn) (rest := []) (by exact hd) (by simp [State.setStk, Action.tid])]
    simp only [handlerFn, userStep, State.setStk, Action.tid, Option.some.injEq, State.mk.injEq, and_true]
    funext u; split <;> rfl
  have h2 : (g.setHnd t ([.user handlerFn] :: g.hnd t)).resume t (g.hnd t) (g.s.setStk t []) = g := by
    have e1 : (fun x => if x = t then g.s.stk t else if x = t then [] else g.s.stk x) = g.s.stk := by
      funext u; split
      · next h => rw [h]
      · rfl
    have e2 : (fun x => if x = t then g.hnd t else if x = t then [Frame.user handlerFn] :: g.hnd t else g.hnd x) = g.hnd := by
      funext u; split
      · next h => rw [h]
      · rfl
    simp only [SState.resume, State.setStk, SState.setHnd, if_true, e1, e2]
  unfold sstep
  simp only [SState.setHnd, hd, Action.tid, if_true]
  simp only [Bool.false_eq_true, if_false]
  rw [show (fun x => if x = t then [.user handlerFn] :: g.hnd t else g.hnd x) = (g.setHnd t ([.user handlerFn] :: g.hnd t)).hnd from rfl]
  rw [e, Option.map_some]
  exact congrArg some h2

/-- **C77 (`immediate_exit`).** A handler can call `immediate_exit(v)` at any moment, whatever it has interrupted and whoever holds the lock: the process ends at once, with status `v`;
nothing else is called, then or later. -/
theorem C77_immediate (hd : g.s.dead = false) {t : Tid} (ht : InHandler g t) (v : Int) :
    ∃ g', sstep c g (.act (.immExit t v)) = some g' ∧ g'.killed = some (t, v) ∧ g'.s.dead = true ∧ g'.s.log = g.s.log ∧ ∀ x, sstep c g' x = none := by
  obtain ⟨fn, ls, hh⟩ := ht
  refine ⟨{ g with s := { g.s with dead := true }, killed := some (t, v) }, ?_, rfl, rfl, rfl, fun x => by simp [sstep]⟩
  simp [sstep, hd, Action.tid, hh]

/-- **C77 (`immediate_exit`).** If a handler's `immediate_exit` has ended the process, nothing else has: there is no other status. -/
theorem C77_killed (h : SReachA c g) {t : Tid} {v : Int} (hk : g.killed = some (t, v)) :
    g.s.dead = true ∧ (∀ x, sstep c g x = none) ∧ ∀ u e w, .group u e w ∉ g.s.log := by
  have I := h.inv fun _ _ h => h
  have hd : g.s.dead = true := by
    cases hd : g.s.dead with
    | true => rfl
    | false => rw [I.alive hd] at hk; cases hk
  refine ⟨hd, fun x => by simp [sstep, hd], fun u e w hm => ?_⟩
  have hfd : g.flat.dead = false := by simp [SState.flat, hk]
  exact I.reach.onok.2 hfd u e w hm

/-- **C77 (progress).** While no handler is running, a thread in origin's own code can go on, or waits for the lock, and then the thread that holds it can go on, or an `exit` call has finished the
program's functions. -/
theorem C77_progress (h : SReachA c g) (hd : g.s.dead = false) (hn : ∀ t, g.hnd t = []) {t : Tid} {fr : Frame} {rest : List Frame}
    (hs : g.s.stk t = fr :: rest) (hu : ∀ fn, fr ≠ .user fn) :
    (∃ g', sstep c g (.act (.step t)) = some g') ∨ (∃ u g', u ≠ t ∧ sstep c g (.act (.step u)) = some g') ∨ PFinished g.s.log := by
  have I := h.inv fun _ _ h => h
  have hf : g.flat = g.s := by simp [SState.flat, hn, I.alive hd]
  have conv : ∀ {u s'}, step c g.s (.step u) = some s' → ∃ g', sstep c g (.act (.step u)) = some g' := fun {u s'} hx =>
    ⟨{ g with s := s' }, by simp [sstep, hd, hn, hx]⟩
  rcases C30_progress (hf ▸ I.reach) hd hs hu with ⟨s', h1⟩ | ⟨u, s', h1, h2⟩ | h1
  · exact .inl (conv h1)
  · exact .inr (.inl ⟨u, _, h1, (conv h2).choose_spec⟩)
  · exact .inr (.inr h1)

/-! ## Concrete histories -/

def userTop : List Frame → Bool
  | .user _ :: _ => true
  | _ => false

def allowed (g : SState) : SAct → Bool
  | .signal _ => true
  | .act x => g.hnd x.tid == [] || (match x with | .ret _ _ | .immExit _ _ => true | _ => false) || (g.interrupted x.tid).all userTop

theorem allowed_sound {x : SAct} (h : allowed g x = true) : g.Allowed x := by
  cases x with
  | signal t => trivial
  | act x =>
    simp only [allowed, Bool.or_eq_true, beq_iff_eq, List.all_eq_true] at h
    rcases h with (h | h) | h
    · exact .inl h
    · cases x with
      | ret t v => exact .inr (.inl ⟨v, rfl⟩)
      | immExit t v => exact .inr (.inr (.inl ⟨v, rfl⟩))
      | _ => cases h
    · refine .inr (.inr (.inr fun l hl => ?_))
      have := h l hl
      cases l with
      | nil => cases this
      | cons fr rest => cases fr <;> first | exact ⟨_, _, rfl⟩ | cases this

def srunA (c : Cfg) (g : SState) : List SAct → Option SState
  | [] => some g
  | x :: xs => if allowed g x then (sstep c g x).bind (srunA c · xs) else none

theorem sreach_run (xs : List SAct) : ∀ {g g' : SState}, SReachA c g → srunA c g xs = some g' → SReachA c g' := by
  induction xs with
  | nil => intro g g' R h; simp [srunA] at h; subst h; exact R
  | cons x xs ih =>
    intro g g' R h
    simp only [srunA] at h
    split at h
    · next ha =>
      simp only [Option.bind_eq_some_iff] at h
      obtain ⟨g1, h1, h2⟩ := h
      exact ih (.step R (allowed_sound ha) h1) h2
    · cases h

theorem sreach_with (xs : List SAct) (P : SState → Bool) (h : (srunA c sinit xs).map P = some true) : ∃ g, SReachA c g ∧ P g = true := by
  rw [Option.map_eq_some_iff] at h
  obtain ⟨g, h1, h2⟩ := h
  exact ⟨g, sreach_run xs .init h1, h2⟩

/-- `origin_main` registers a function; a handler interrupts the call while it holds the lock, and a second one interrupts the first; both return.  A third handler interrupts
`origin_main` itself and registers a function; while it does so, a fourth comes and goes; `origin_main` returns 7. -/
def sigRun : List SAct :=
  toMain.map .act ++ [.act (.regProg 0), .act (.step 0), .signal 0, .signal 0, .act (.ret 0 0), .act (.ret 0 0), .act (.step 0), .signal 0, .act (.ret 0 0), .act (.step 0)] ++
  [.signal 0, .act (.regProg 0), .act (.step 0), .signal 0, .act (.ret 0 0), .act (.step 0), .act (.step 0), .act (.ret 0 0), .act (.ret 0 7)]

/-- The whole of it, to the end: the function the handler registered is called first. -/
example : ∃ g, SReachA demo g ∧ g.s.log.reverse =
    [.runtimeInit, .ctor 100 demo.args, .ctor 108 demo.args, .main demo.args, .pReg 0 0, .pRegRet 0 0, .pReg 0 1, .pRegRet 0 1, .mainRet 7, .exitBegin 0 0 7, .tDone 0 0,
      .pTake 0 0 1, .pCall 0 0 1, .pTake 0 0 0, .pCall 0 0 0, .pDone 0 0, .fini 0 0 208, .fini 0 0 200, .group 0 0 7] := by
  obtain ⟨g, h1, h2⟩ := sreach_with (c := demo) (sigRun ++ ((steps 0 5 ++ [Action.ret 0 0] ++ steps 0 4 ++ [Action.ret 0 0] ++ steps 0 3 ++ [Action.ret 0 0, .step 0, .ret 0 0] ++ steps 0 2).map .act))
    (fun g => decide (g.s.log.reverse =
    [.runtimeInit, .ctor 100 demo.args, .ctor 108 demo.args, .main demo.args, .pReg 0 0, .pRegRet 0 0, .pReg 0 1, .pRegRet 0 1, .mainRet 7, .exitBegin 0 0 7, .tDone 0 0,
      .pTake 0 0 1, .pCall 0 0 1, .pTake 0 0 0, .pCall 0 0 0, .pDone 0 0, .fini 0 0 208, .fini 0 0 200, .group 0 0 7])) (by decide)
  exact ⟨g, h1, of_decide_eq_true h2⟩

/-- A handler that interrupts `exit` while it holds the lock ends the process with status 5: function 0 is registered, and not called. -/
example : ∃ g, SReachA demo g ∧ g.killed = some (0, 5) ∧ g.s.dead = true ∧ g.s.dtors = [0] ∧ g.s.lock = some 0 := by
  obtain ⟨g, h1, h2⟩ := sreach_with (c := demo) (toMain.map .act ++ [.act (.regProg 0)] ++ (steps 0 3).map .act ++ [.act (.exit 0 7), .act (.step 0), .act (.step 0), .signal 0, .act (.immExit 0 5)])
    (fun g => decide (g.killed = some (0, 5) ∧ g.s.dead = true ∧ g.s.dtors = [0] ∧ g.s.lock = some 0)) (by decide)
  exact ⟨g, h1, of_decide_eq_true h2⟩

/-- **C77, why the condition is needed.** A handler that interrupts `program::at_exit` while it holds the lock, and calls `program::at_exit` itself, hangs the program: nothing can happen any
more except that further signals arrive. -/
theorem C77_at_exit_false : ∃ g, SReach demo (fun _ _ => True) g ∧ g.s.dead = false ∧ g.hnd 0 = [[.regLock, .user handlerFn]] ∧ ∀ x, sstep demo g (.act x) = none := by
  obtain ⟨g, h1, h2⟩ := sreach_with (c := demo) (toMain.map .act ++ [.act (.regProg 0), .act (.step 0)])
    (fun g => decide (g.s.dead = false ∧ g.s.lock = some 0 ∧ g.hnd 0 = [] ∧ g.s.stk 0 = [.regPush, .user .main] ∧ g.s.nextT = 1)) (by decide)
  obtain ⟨hd, hl, hh, hs, hn⟩ := of_decide_eq_true h2
  have I := h1.inv fun _ _ h => h
  have hany : SReach demo (fun _ _ => True) g := by
    clear h2 hd hl hh hs hn I
    induction h1 with
    | init => exact .init
    | step _ _ h ih => exact .step ih trivial h
  have e1 : sstep demo g (.signal 0) = some (g.setHnd 0 [[.user handlerFn]]) := by simp [sstep, hd, SState.cur, hh, hs]
  let g2 : SState := g.setHnd 0 [[.regLock, .user handlerFn]]
  have e2 : sstep demo (g.setHnd 0 [[.user handlerFn]]) (.act (.regProg 0)) = some g2 := by
    have h0 : Proc.step demo (g.s.setStk 0 [.user handlerFn]) (.regProg 0) = some (g.s.setStk 0 [.regLock, .user handlerFn]) := by
      rw [step_userTop (fn := handlerFn) (rest := []) (by exact hd) (by simp [State.setStk, Action.tid])]
      simp only [userStep, State.setStk, Action.tid, demo, if_true, Option.some.injEq, State.mk.injEq, and_true]
      funext u; split <;> rfl
    have h3 : (g.setHnd 0 [[.user handlerFn]]).resume 0 [] (g.s.setStk 0 [.regLock, .user handlerFn]) = g2 := by
      have k1 : (fun x => if x = 0 then g.s.stk 0 else if x = 0 then [Frame.regLock, .user handlerFn] else g.s.stk x) = g.s.stk := by
        funext u; split
        · next h => rw [h]
        · rfl
      have k2 : (fun x => if x = 0 then [[Frame.regLock, .user handlerFn]] else if x = 0 then [[Frame.user handlerFn]] else g.hnd x) =
          fun x => if x = 0 then [[Frame.regLock, .user handlerFn]] else g.hnd x := by
        funext u; split <;> simp_all
      simp only [g2, SState.resume, State.setStk, SState.setHnd, if_true, k1]
      simp only [SState.mk.injEq, true_and, and_true, List.cons_ne_nil, if_false]
      exact k2
    have h4 : sstep demo (g.setHnd 0 [[.user handlerFn]]) (.act (.regProg 0)) =
        (Proc.step demo (g.s.setStk 0 [.user handlerFn]) (.regProg 0)).map ((g.setHnd 0 [[.user handlerFn]]).resume 0 []) := by
      simp [sstep, SState.setHnd, hd, Action.tid]
    rw [h4, h0, Option.map_some, h3]
  refine ⟨g2, .step (.step hany trivial e1) trivial e2, hd, by simp [g2, SState.setHnd], fun x => ?_⟩
  unfold sstep
  rw [if_neg (show ¬ g2.s.dead = true by rw [show g2.s.dead = g.s.dead from rfl, hd]; simp)]
  simp only
  by_cases hx : x.tid = 0
  · have hh2 : g2.hnd x.tid = [[.regLock, .user handlerFn]] := by rw [hx]; simp [g2, SState.setHnd]
    have hst : Proc.step demo (g2.s.setStk x.tid [.regLock, .user handlerFn]) x = none := by
      rw [step_frameTop (fr := .regLock) (rest := [.user handlerFn]) (by exact hd) (by simp [State.setStk]) (by simp)]
      split
      · have hl2 : (g2.s.setStk x.tid [.regLock, .user handlerFn]).lock = some 0 := hl
        simp [frameStep, State.acquire, demo, hl2]
      · rfl
    rw [hh2]
    simp only
    rw [hst]
    cases x <;> rfl
  · have hge : g.s.nextT ≤ x.tid := by rw [hn]; exact Nat.one_le_iff_ne_zero.mpr hx
    obtain ⟨k1, k2⟩ := I.new hge
    have hh2 : g2.hnd x.tid = [] := by simp [g2, SState.setHnd, hx, k1]
    rw [hh2]
    simp only
    rw [step_noStk (show g2.s.stk x.tid = [] from k2)]
    rfl

end Origin.Proc
