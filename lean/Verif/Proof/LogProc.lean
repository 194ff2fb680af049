import Verif.Spec.LogProc
import Verif.Props.Process
/-! # The process with messages behaves like one without -/

namespace Origin.LogProc

open Proc (Cfg Fn Tid FnId Exit Ev Action)

set_option linter.unusedSimpArgs false

/-- How a call stack corresponds to one of the model without messages: what has been announced is taken to have been called, and what is followed by a message not to have
returned yet, so that the logger is part of that function. -/
inductive Abs : List Frame → List Proc.Frame → Prop
  | nil : Abs [] []
  | user {r p} (fn) : (fn = .start → r = []) → (r = [.thrLoop] → fn = .main ∨ fn = .start ∨ ∃ f, fn = .tdtor f) → Abs r p → Abs (.user fn :: r) (.user fn :: p)
  | logger {r p fn} (m) : Abs r (.user fn :: p) → Abs (.logger m :: r) (.user fn :: p)
  | last {r p} (e st) : Abs r p → Abs (.logger (.exiting (some e) st) :: .exitGrp e st :: r) (.exitImm e st :: p)
  | entry {r p} : Abs r p → Abs (.entry :: r) (.entry :: p)
  | init {r p} (q) : Abs r p → Abs (.init q :: r) (.init q :: p)
  | callCtor {r p} (q) : r ≠ [.thrLoop] → Abs r p → Abs (.callCtor q :: r) (.user (.ctor q) :: p)
  | callMain {r p} : Abs r p → Abs (.callMain :: r) (.user .main :: p)
  | mainDone {r p} (st) : Abs r p → Abs (.mainDone st :: r) (.user .main :: p)
  | createdMsg {r p fn} (u) : Abs r (.user fn :: p) → Abs (.createdMsg u :: r) (.user fn :: p)
  | launch : Abs [.launch] [.user .start]
  | callStart : Abs [.callStart] [.user .start]
  | startDone : Abs [.startDone] [.user .start]
  | thrLoop : Abs [.thrLoop] [.thrLoop]
  | callT {r p} (o f) : Abs r p → Abs (.callT o f :: r) (.user (.tdtor f) :: p)
  | thrGone1 : Abs [.thrGone] [.user .start]
  | thrGone2 (f) : Abs [.thrGone] [.user (.tdtor f), .thrLoop]
  | regLock {r p fn} : Abs r (.user fn :: p) → Abs (.regLock :: r) (.regLock :: .user fn :: p)
  | regPush {r p fn} : Abs r (.user fn :: p) → Abs (.regPush :: r) (.regPush :: .user fn :: p)
  | regUnlock {r p fn} (f) : Abs r (.user fn :: p) → Abs (.regUnlock f :: r) (.regUnlock f :: .user fn :: p)
  | exitThr {r p} (e st) : Abs r p → Abs (.exitThr e st :: r) (.exitThr e st :: p)
  | exitLock {r p} (e st) : Abs r p → Abs (.exitLock e st :: r) (.exitLock e st :: p)
  | exitPop {r p} (e st) : Abs r p → Abs (.exitPop e st :: r) (.exitPop e st :: p)
  | exitUnlock {r p} (e st f) : Abs r p → Abs (.exitUnlock e st f :: r) (.exitUnlock e st f :: p)
  | exitMsg {r p} (e st f) : Abs r p → Abs (.exitMsg e st f :: r) (.exitCall e st f :: p)
  | exitCall {r p} (e st f) : Abs r p → Abs (.exitCall e st f :: r) (.user (.pdtor f) :: .exitLock e st :: p)
  | exitFini {r p} (e st q) : Abs r p → Abs (.exitFini e st q :: r) (.exitFini e st q :: p)
  | callFini {r p} (e q) : r ≠ [.thrLoop] → Abs r p → Abs (.callFini e q :: r) (.user (.fini q) :: p)
  | exitGrp {r p} (e st) : Abs r p → Abs (.exitGrp e st :: r) (.exitImm e st :: p)
  | immGrp {r p fn} (st) : Abs r (.user fn :: p) → Abs (.immGrp st :: r) (.user fn :: p)

/-- The thread's last user function is taken not to have returned yet. -/
def Pending (p : List Proc.Frame) : Prop := p = [.user .start] ∨ ∃ f, p = [.user (.tdtor f), .thrLoop]

/-- The same for the whole stack of a thread: before it announces its exit its last function has not returned yet. -/
def Top (l : List Frame) (p : List Proc.Frame) : Prop := (l = [.thrLoop] ∧ Pending p) ∨ (l ≠ [.thrLoop] ∧ Abs l p)

/-- The corresponding state of the model without messages, with call stacks `k`. -/
def view (c : Cfg) (s : State) (k : Tid → List Proc.Frame) : Proc.State :=
  ⟨k, s.tdtors, s.dtors, s.lock, s.nextT, s.nextF, s.nextE, s.dead, plain c s.log⟩

structure Sim (c : Cfg) (s : State) (k : Tid → List Proc.Frame) : Prop where
  reach : Proc.Reach c (view c s k)
  top : s.dead = false → ∀ t, Top (s.stk t) (k t)
  gone : ∀ t, .thrGone ∈ s.stk t → c.threadAtExit = true → s.tdtors t = []

theorem Abs.top {l p} (h : Abs l p) (hne : l ≠ [.thrLoop]) : Top l p := .inr ⟨hne, h⟩

theorem Abs.nil_iff {p} (h : Abs [] p) : p = [] := by cases h; rfl
theorem Abs.thr {p} (h : Abs [.thrLoop] p) : p = [.thrLoop] := by cases h; rfl

theorem Pending.abs {p} (h : Pending p) : Abs [.thrGone] p := by
  rcases h with rfl | ⟨f, rfl⟩
  · exact .thrGone1
  · exact .thrGone2 f

theorem Pending.of {p} (h : Abs [.thrGone] p) : Pending p := by
  cases h with
  | thrGone1 => exact .inl rfl
  | thrGone2 f => exact .inr ⟨f, rfl⟩

/-- Thread `t`'s stacks become `l` and `p`. -/
def upd {α : Type} (k : Tid → α) (t : Tid) (p : α) : Tid → α := fun x => if x = t then p else k x

theorem upd_def {α : Type} (k : Tid → α) (t : Tid) (p : α) : upd k t p = fun x => if x = t then p else k x := rfl

theorem top_upd {s : State} {k} (h : ∀ u, Top (s.stk u) (k u)) {t : Tid} {l p} (ht : Top l p) (u : Tid) :
    Top (upd s.stk t l u) (upd k t p u) := by
  unfold upd
  split
  · exact ht
  · exact h u

theorem reach_run {c : Cfg} : ∀ {xs a b}, Proc.run c a xs = some b → Proc.Reach c a → Proc.Reach c b := by
  intro xs
  induction xs with
  | nil => intro a b h2 h1; simp [Proc.run] at h2; rw [← h2]; exact h1
  | cons x xs ih =>
    intro a b h2 h1
    simp only [Proc.run, Option.bind_eq_some_iff] at h2
    obtain ⟨d, h3, h4⟩ := h2
    exact ih h4 (.step h1 h3)

/-- What the model without messages does while the one with messages does `x`: nothing (if it is a step of origin's own code, then the corresponding thread runs user code), the same, or what has
been put off: the return of the last function, or `immediate_exit`. -/
inductive Follows (x : Action) (s : State) (k : Tid → List Proc.Frame) : List Action → Prop
  | stay : (x = .step x.tid → ∃ fn p, k x.tid = .user fn :: p) →
      (∀ v, x = .ret x.tid v → ∀ fn r, s.stk x.tid = .user fn :: r → fn = .main ∨ fn = .start ∨ r = [.thrLoop]) → Follows x s k []
  | same : Follows x s k [x]
  | ret (v) : x = .step x.tid → Follows x s k [.ret x.tid v]
  | retStep (v) : x = .step x.tid → Follows x s k [.ret x.tid v, x]
  | imm (v) : x = .step x.tid → Follows x s k [.immExit x.tid v, x]

/-- The corresponding steps. -/
def Next (c : Cfg) (s s' : State) (k : Tid → List Proc.Frame) (x : Action) : Prop :=
  ∃ k' xs, Sim c s' k' ∧ Proc.run c (view c s k) xs = some (view c s' k') ∧ Follows x s k xs

/-- A simulation step that touches only the stacks of `t`, and not the functions registered for threads. -/
theorem Sim.put {c s k} (S : Sim c s k) (hd : s.dead = false) {x : Action} {t : Tid} {l p} {s' : State} {xs : List Action} (hf : Follows x s k xs) (hstk : s'.stk = upd s.stk t l) (htd : s'.tdtors = s.tdtors)
    (ht : Top l p) (hg : .thrGone ∈ l → .thrGone ∈ s.stk t ∨ (c.threadAtExit = true → s.tdtors t = []))
    (hr : Proc.run c (view c s k) xs = some (view c s' (upd k t p))) : Next c s s' k x := by
  refine ⟨upd k t p, xs, ⟨reach_run hr S.reach, fun _ u => ?_, fun u hu hc => ?_⟩, hr, hf⟩
  · rw [hstk]; exact top_upd (S.top hd) ht u
  · rw [hstk] at hu
    rw [htd]
    unfold upd at hu
    split at hu
    · next h => rw [h]; exact (hg hu).elim (fun h => S.gone t h hc) (fun h => h hc)
    · exact S.gone u hu hc

theorem run_one {c : Cfg} {a b : Proc.State} {x : Action} (h : Proc.step c a x = some b) : Proc.run c a [x] = some b := by
  simp [Proc.run, h]

theorem run_two {c : Cfg} {a b d : Proc.State} {x y : Action} (h : Proc.step c a x = some b) (h' : Proc.step c b y = some d) : Proc.run c a [x, y] = some d := by
  simp [Proc.run, h, h']

/-- A step that the model without messages does not make. -/
theorem Sim.stay {c s k} (S : Sim c s k) (hd : s.dead = false) {x : Action} {t : Tid} {l} {s' : State} (hf : Follows x s k []) (hstk : s'.stk = upd s.stk t l) (htd : s'.tdtors = s.tdtors)
    (ht : Top l (k t)) (hg : .thrGone ∈ l → .thrGone ∈ s.stk t ∨ (c.threadAtExit = true → s.tdtors t = []))
    (hv : view c s' k = view c s k) : Next c s s' k x := by
  refine S.put hd (p := k t) (xs := []) hf hstk htd ht hg ?_
  have : upd k t (k t) = k := by funext x; simp only [upd]; split <;> simp_all
  rw [this, hv]; rfl

/-- A step that touches only the stacks of `t`, and takes functions off its list. -/
theorem Sim.putTd {c s k} (S : Sim c s k) (hd : s.dead = false) {x : Action} {t : Tid} {l p f fs} {s' : State} {xs : List Action} (hF : Follows x s k xs) (hstk : s'.stk = upd s.stk t l) (htd : s'.tdtors = upd s.tdtors t fs)
    (ht : Top l p) (hf : s.tdtors t = f :: fs) (hc : c.threadAtExit = true) (hg : .thrGone ∈ l → .thrGone ∈ s.stk t)
    (hr : Proc.run c (view c s k) xs = some (view c s' (upd k t p))) : Next c s s' k x := by
  refine ⟨upd k t p, xs, ⟨reach_run hr S.reach, fun _ u => ?_, fun u hu _ => ?_⟩, hr, hF⟩
  · rw [hstk]; exact top_upd (S.top hd) ht u
  · rw [hstk] at hu
    rw [htd]
    unfold upd at hu ⊢
    split at hu
    · next h => rw [S.gone t (hg hu) hc] at hf; cases hf
    · next h => rw [if_neg h]; exact S.gone u hu hc

/-- Origin's own code. -/
theorem frame_sim {c s s' k} (S : Sim c s k) {t : Tid} {fr : Frame} {rest : List Frame} (hd : s.dead = false) (hs : s.stk t = fr :: rest)
    (h : frameStep c s t rest fr = some s') : Next c s s' k (.step t) := by
  have T := S.top hd t
  rw [hs] at T
  have G : .thrGone ∈ rest → .thrGone ∈ s.stk t := fun h => by rw [hs]; exact List.mem_cons_of_mem _ h
  cases fr with
  | user fn => cases h
  | logger m => cases h
  | entry =>
    obtain ⟨h1, -⟩ | ⟨-, hA⟩ := T
    · simp at h1
    generalize hp : k t = P at hA
    cases hA with
    | entry hA =>
    simp only [frameStep, Option.some.injEq] at h
    subst h
    refine S.put hd (t := t) .same rfl rfl (.inr ⟨by simp, .init _ hA⟩) (fun h => .inl (G (by simpa using h))) (run_one (x := .step t) ?_)
    simp [Proc.step, view, hd, hp, Proc.frameStep, Action.tid, State.ev, State.setStk, State.trace, Proc.State.ev, Proc.State.setStk, plain, announced, Msg.announces, upd_def]
  | init q =>
    obtain ⟨h1, -⟩ | ⟨-, hA⟩ := T
    · simp at h1
    generalize hp : k t = P at hA
    cases hA with
    | init _ hA =>
    simp only [frameStep] at h
    split at h <;> (simp only [Option.some.injEq] at h; subst h)
    · next hq =>
      refine S.put hd (t := t) .same rfl rfl (.inr ⟨by simp, .logger _ (.callMain hA)⟩) (fun h => .inl (G (by simpa using h))) (run_one (x := .step t) ?_)
      simp [Proc.step, view, hd, hp, Proc.frameStep, Action.tid, State.ev, State.setStk, State.trace, Proc.State.ev, Proc.State.setStk, plain, announced, Msg.announces, upd_def, hq]
    · next hq =>
      refine S.put hd (t := t) .same rfl rfl (.inr ⟨by simp, .logger _ (.callCtor _ (by simp) (.init _ hA))⟩) (fun h => .inl (G (by simpa using h))) (run_one (x := .step t) ?_)
      simp [Proc.step, view, hd, hp, Proc.frameStep, Action.tid, State.ev, State.setStk, State.trace, Proc.State.ev, Proc.State.setStk, plain, announced, Msg.announces, upd_def, hq]
  | callCtor q =>
    obtain ⟨h1, -⟩ | ⟨-, hA⟩ := T
    · simp at h1
    generalize hp : k t = P at hA
    cases hA with
    | callCtor _ hnt hA =>
    simp only [frameStep, Option.some.injEq] at h
    subst h
    refine S.stay hd (t := t) (.stay (fun _ => ⟨_, _, hp⟩) fun _ h => by cases h) rfl rfl (.inr ⟨by simp, hp ▸ .user _ (by simp) (fun h => absurd h hnt) hA⟩) (fun h => .inl (G (by simpa using h))) (by simp [view, State.ev, State.setStk, State.trace, plain, announced, Msg.announces])
  | callMain =>
    obtain ⟨h1, -⟩ | ⟨-, hA⟩ := T
    · simp at h1
    generalize hp : k t = P at hA
    cases hA with
    | callMain hA =>
    simp only [frameStep, Option.some.injEq] at h
    subst h
    refine S.stay hd (t := t) (.stay (fun _ => ⟨_, _, hp⟩) fun _ h => by cases h) rfl rfl (.inr ⟨by simp, hp ▸ .user _ (by simp) (fun _ => .inl rfl) hA⟩) (fun h => .inl (G (by simpa using h))) (by simp [view, State.ev, State.setStk, State.trace, plain, announced, Msg.announces])
  | mainDone st =>
    obtain ⟨h1, -⟩ | ⟨-, hA⟩ := T
    · simp at h1
    generalize hp : k t = P at hA
    cases hA with
    | mainDone _ hA =>
    simp only [frameStep, Option.some.injEq] at h
    subst h
    refine S.put hd (t := t) (.ret st rfl) rfl rfl (.inr ⟨by simp, .exitThr _ _ hA⟩) (fun h => .inl (G (by simpa using h))) (run_one (x := .ret t st) ?_)
    simp [Proc.step, view, hd, hp, Proc.frameStep, Action.tid, State.ev, State.setStk, State.trace, Proc.State.ev, Proc.State.setStk, plain, announced, Msg.announces, upd_def, Proc.userStep, State.beginExit, Proc.State.beginExit]
  | createdMsg u =>
    obtain ⟨h1, -⟩ | ⟨-, hA⟩ := T
    · simp at h1
    generalize hp : k t = P at hA
    cases hA with
    | createdMsg _ hA =>
    simp only [frameStep, Option.some.injEq] at h
    subst h
    refine S.stay hd (t := t) (.stay (fun _ => ⟨_, _, hp⟩) fun _ h => by cases h) rfl rfl (.inr ⟨by simp, hp ▸ .logger _ hA⟩) (fun h => .inl (G (by simpa using h))) (by simp [view, State.ev, State.setStk, State.trace, plain, announced, Msg.announces])
  | launch =>
    obtain ⟨h1, -⟩ | ⟨-, hA⟩ := T
    · simp at h1
    generalize hp : k t = P at hA
    cases hA with
    | launch =>
    simp only [frameStep, Option.some.injEq] at h
    subst h
    refine S.stay hd (t := t) (.stay (fun _ => ⟨_, _, hp⟩) fun _ h => by cases h) rfl rfl (.inr ⟨by simp, hp ▸ .logger _ .callStart⟩) (fun h => .inl (G (by simp at h))) (by simp [view, State.ev, State.setStk, State.trace, plain, announced, Msg.announces])
  | callStart =>
    obtain ⟨h1, -⟩ | ⟨-, hA⟩ := T
    · simp at h1
    generalize hp : k t = P at hA
    cases hA with
    | callStart =>
    simp only [frameStep, Option.some.injEq] at h
    subst h
    refine S.stay hd (t := t) (.stay (fun _ => ⟨_, _, hp⟩) fun _ h => by cases h) rfl rfl (.inr ⟨by simp, hp ▸ .user _ (by simp) (by simp) .nil⟩) (fun h => .inl (G (by simp at h))) (by simp [view, State.ev, State.setStk, State.trace, plain, announced, Msg.announces])
  | startDone =>
    obtain ⟨h1, -⟩ | ⟨-, hA⟩ := T
    · simp at h1
    generalize hp : k t = P at hA
    cases hA with
    | startDone =>
    simp only [frameStep, Option.some.injEq] at h
    subst h
    exact S.stay hd (t := t) (.stay (fun _ => ⟨_, _, hp⟩) fun _ h => by cases h) rfl rfl (.inl ⟨rfl, .inl hp⟩) (fun h => by simp at h) (by simp [view, State.ev, State.setStk, State.trace, plain, announced, Msg.announces])
  | thrLoop =>
    obtain ⟨h1, hP⟩ | ⟨h1, hA⟩ := T
    · obtain rfl : rest = [] := by simpa using h1
      simp only [frameStep] at h
      split at h
      · next f fs h2 h3 =>
        simp only [Option.some.injEq] at h
        subst h
        refine S.putTd hd (t := t) (l := [.logger (.tdtor none f), .callT none f, .thrLoop]) (xs := [.ret t 0, .step t]) (p := [.user (.tdtor f), .thrLoop]) (.retStep 0 rfl) rfl rfl
          (.inr ⟨by simp, .logger _ (.callT _ _ .thrLoop)⟩) h3 h2 (by simp) (run_two (b := (view c s k).setStk t [.thrLoop]) ?_ ?_)
        · rcases hP with hp | ⟨f', hp⟩
          · simp [Proc.step, view, hd, hp, Proc.frameStep, Action.tid, State.ev, State.setStk, State.trace, Proc.State.ev, Proc.State.setStk, plain, announced, Msg.announces, upd_def, Proc.userStep]
          · simp [Proc.step, view, hd, hp, Proc.frameStep, Action.tid, State.ev, State.setStk, State.trace, Proc.State.ev, Proc.State.setStk, plain, announced, Msg.announces, upd_def, Proc.userStep]
        · have hp := True.intro
          simp [Proc.step, view, hd, hp, Proc.frameStep, Action.tid, State.ev, State.setStk, State.trace, Proc.State.ev, Proc.State.setStk, plain, announced, Msg.announces, upd_def, h2, h3, State.setTd, Proc.State.setTd]
          funext x; split <;> rfl
      · next hn =>
        simp only [Option.some.injEq] at h
        subst h
        obtain ⟨fn, p, hp⟩ : ∃ fn p, k t = .user fn :: p := by
          rcases hP with hp | ⟨f', hp⟩ <;> exact ⟨_, _, hp⟩
        refine S.stay hd (t := t) (l := [.logger .gone, .thrGone]) (.stay (fun _ => ⟨_, _, hp⟩) fun _ h => by cases h) rfl rfl (.inr ⟨by simp, ?_⟩) (fun _ => .inr fun hc => ?_)
          (by simp [view, State.ev, State.setStk, State.trace, plain, announced, Msg.announces])
        · have := hP.abs; rw [hp] at this ⊢; exact .logger _ this
        · cases ht : s.tdtors t with
          | nil => rfl
          | cons f fs => exact absurd ht (hn f fs hc)
    · generalize hp : k t = P at hA
      cases hA; simp at h1
  | callT o f =>
    obtain ⟨h1, -⟩ | ⟨-, hA⟩ := T
    · simp at h1
    generalize hp : k t = P at hA
    cases hA with
    | callT _ _ hA =>
    simp only [frameStep, Option.some.injEq] at h
    subst h
    refine S.stay hd (t := t) (.stay (fun _ => ⟨_, _, hp⟩) fun _ h => by cases h) rfl rfl (.inr ⟨by simp, hp ▸ .user _ (by simp) (fun _ => .inr (.inr ⟨_, rfl⟩)) hA⟩) (fun h => .inl (G (by simpa using h))) (by simp [view, State.ev, State.setStk, State.trace, plain, announced, Msg.announces])
  | thrGone =>
    obtain ⟨h1, -⟩ | ⟨-, hA⟩ := T
    · simp at h1
    obtain rfl : rest = [] := by
      generalize k t = P at hA
      cases hA <;> rfl
    simp only [frameStep, Option.some.injEq] at h
    subst h
    have hP := Pending.of hA
    have hn := S.gone t (by rw [hs]; simp)
    refine S.put hd (t := t) (l := []) (xs := [.ret t 0, .step t]) (p := []) (.retStep 0 rfl) rfl rfl (.inr ⟨by simp, .nil⟩) (by simp) (run_two (b := (view c s k).setStk t [.thrLoop]) ?_ ?_)
    · rcases hP with hp | ⟨f', hp⟩
      · simp [Proc.step, view, hd, hp, Proc.frameStep, Action.tid, State.ev, State.setStk, State.trace, Proc.State.ev, Proc.State.setStk, plain, announced, Msg.announces, upd_def, Proc.userStep]
      · simp [Proc.step, view, hd, hp, Proc.frameStep, Action.tid, State.ev, State.setStk, State.trace, Proc.State.ev, Proc.State.setStk, plain, announced, Msg.announces, upd_def, Proc.userStep]
    · have hp := True.intro
      cases hc : c.threadAtExit
      · simp [Proc.step, view, hd, hp, Proc.frameStep, Action.tid, State.ev, State.setStk, State.trace, Proc.State.ev, Proc.State.setStk, plain, announced, Msg.announces, upd_def, hc]
        funext x; split <;> rfl
      · simp [Proc.step, view, hd, hp, Proc.frameStep, Action.tid, State.ev, State.setStk, State.trace, Proc.State.ev, Proc.State.setStk, plain, announced, Msg.announces, upd_def, hc, hn hc]
        funext x; split <;> rfl
  | regLock =>
    obtain ⟨h1, -⟩ | ⟨-, hA⟩ := T
    · simp at h1
    generalize hp : k t = P at hA
    cases hA with
    | regLock hA =>
    simp only [frameStep, Option.map_eq_some_iff, State.acquire] at h
    obtain ⟨s1, h1, rfl⟩ := h
    cases hc : c.thread
    · simp only [hc, Bool.false_eq_true, if_false, Option.some.injEq] at h1
      subst h1
      refine S.put hd (t := t) .same rfl rfl (.inr ⟨by simp, .regPush hA⟩) (fun h => .inl (G (by simpa using h))) (run_one (x := .step t) ?_)
      simp [Proc.step, view, hd, hp, Proc.frameStep, Action.tid, State.ev, State.setStk, State.trace, Proc.State.ev, Proc.State.setStk, plain, announced, Msg.announces, upd_def, Proc.State.acquire, hc]
      rfl
    · simp only [hc, if_true] at h1
      split at h1
      · next hl =>
        simp only [Option.some.injEq] at h1
        subst h1
        refine S.put hd (t := t) .same rfl rfl (.inr ⟨by simp, .regPush hA⟩) (fun h => .inl (G (by simpa using h))) (run_one (x := .step t) ?_)
        simp [Proc.step, view, hd, hp, Proc.frameStep, Action.tid, State.ev, State.setStk, State.trace, Proc.State.ev, Proc.State.setStk, plain, announced, Msg.announces, upd_def, Proc.State.acquire, hc, hl]
        rfl
      · cases h1
  | regPush =>
    obtain ⟨h1, -⟩ | ⟨-, hA⟩ := T
    · simp at h1
    generalize hp : k t = P at hA
    cases hA with
    | regPush hA =>
    simp only [frameStep, Option.some.injEq] at h
    subst h
    refine S.put hd (t := t) .same rfl rfl (.inr ⟨by simp, .regUnlock _ hA⟩) (fun h => .inl (G (by simpa using h))) (run_one (x := .step t) ?_)
    simp [Proc.step, view, hd, hp, Proc.frameStep, Action.tid, State.ev, State.setStk, State.trace, Proc.State.ev, Proc.State.setStk, plain, announced, Msg.announces, upd_def]
  | regUnlock f =>
    obtain ⟨h1, -⟩ | ⟨-, hA⟩ := T
    · simp at h1
    generalize hp : k t = P at hA
    cases hA with
    | regUnlock _ hA =>
    simp only [frameStep, Option.some.injEq, State.release] at h
    subst h
    cases hc : c.thread
    · refine S.put hd (t := t) .same rfl rfl (.inr ⟨(by rintro rfl; cases hA), hA⟩) (fun h => .inl (G (by simpa using h))) (run_one (x := .step t) ?_)
      simp [Proc.step, view, hd, hp, Proc.frameStep, Action.tid, State.ev, State.setStk, State.trace, Proc.State.ev, Proc.State.setStk, plain, announced, Msg.announces, upd_def, Proc.State.release, hc]
    · refine S.put hd (t := t) .same rfl rfl (.inr ⟨(by rintro rfl; cases hA), hA⟩) (fun h => .inl (G (by simpa using h))) (run_one (x := .step t) ?_)
      simp [Proc.step, view, hd, hp, Proc.frameStep, Action.tid, State.ev, State.setStk, State.trace, Proc.State.ev, Proc.State.setStk, plain, announced, Msg.announces, upd_def, Proc.State.release, hc]
  | exitThr e st =>
    obtain ⟨h1, -⟩ | ⟨-, hA⟩ := T
    · simp at h1
    generalize hp : k t = P at hA
    cases hA with
    | exitThr _ _ hA =>
    simp only [frameStep] at h
    split at h
    · next f fs h2 h3 =>
      simp only [Option.some.injEq] at h
      subst h
      refine S.putTd hd (t := t) .same rfl rfl (.inr ⟨by simp, .logger _ (.callT _ _ (.exitThr _ _ hA))⟩) h3 h2 (fun h => G (by simpa using h)) (run_one (x := .step t) ?_)
      simp [Proc.step, view, hd, hp, Proc.frameStep, Action.tid, State.ev, State.setStk, State.trace, Proc.State.ev, Proc.State.setStk, plain, announced, Msg.announces, upd_def, h2, h3, State.setTd, Proc.State.setTd]
    · next hn =>
      simp only [Option.some.injEq] at h
      subst h
      refine S.put hd (t := t) .same rfl rfl (.inr ⟨by simp, .exitLock _ _ hA⟩) (fun h => .inl (G (by simpa using h))) (run_one (x := .step t) ?_)
      cases hc : c.threadAtExit
      · simp [Proc.step, view, hd, hp, Proc.frameStep, Action.tid, State.ev, State.setStk, State.trace, Proc.State.ev, Proc.State.setStk, plain, announced, Msg.announces, upd_def, hc]
      · cases ht : s.tdtors t with
        | nil => simp [Proc.step, view, hd, hp, Proc.frameStep, Action.tid, State.ev, State.setStk, State.trace, Proc.State.ev, Proc.State.setStk, plain, announced, Msg.announces, upd_def, hc, ht]
        | cons f fs => exact absurd ht (hn f fs hc)
  | exitLock e st =>
    obtain ⟨h1, -⟩ | ⟨-, hA⟩ := T
    · simp at h1
    generalize hp : k t = P at hA
    cases hA with
    | exitLock _ _ hA =>
    simp only [frameStep] at h
    split at h
    rotate_left
    · next hc =>
      simp only [Option.some.injEq] at h
      subst h
      refine S.put hd (t := t) .same rfl rfl (.inr ⟨by simp, .exitFini _ _ _ hA⟩) (fun h => .inl (G (by simpa using h))) (run_one (x := .step t) ?_)
      simp [Proc.step, view, hd, hp, Proc.frameStep, Action.tid, State.ev, State.setStk, State.trace, Proc.State.ev, Proc.State.setStk, plain, announced, Msg.announces, upd_def, hc]
    next hpa =>
    simp only [Option.map_eq_some_iff, State.acquire] at h
    obtain ⟨s1, h1, rfl⟩ := h
    cases hc : c.thread
    · simp only [hc, Bool.false_eq_true, if_false, Option.some.injEq] at h1
      subst h1
      refine S.put hd (t := t) .same rfl rfl (.inr ⟨by simp, .exitPop _ _ hA⟩) (fun h => .inl (G (by simpa using h))) (run_one (x := .step t) ?_)
      simp [Proc.step, view, hd, hp, Proc.frameStep, Action.tid, State.ev, State.setStk, State.trace, Proc.State.ev, Proc.State.setStk, plain, announced, Msg.announces, upd_def, Proc.State.acquire, hpa, hc]
      rfl
    · simp only [hc, if_true] at h1
      split at h1
      · next hl =>
        simp only [Option.some.injEq] at h1
        subst h1
        refine S.put hd (t := t) .same rfl rfl (.inr ⟨by simp, .exitPop _ _ hA⟩) (fun h => .inl (G (by simpa using h))) (run_one (x := .step t) ?_)
        simp [Proc.step, view, hd, hp, Proc.frameStep, Action.tid, State.ev, State.setStk, State.trace, Proc.State.ev, Proc.State.setStk, plain, announced, Msg.announces, upd_def, Proc.State.acquire, hpa, hc, hl]
        rfl
      · cases h1
  | exitPop e st =>
    obtain ⟨h1, -⟩ | ⟨-, hA⟩ := T
    · simp at h1
    generalize hp : k t = P at hA
    cases hA with
    | exitPop _ _ hA =>
    simp only [frameStep] at h
    split at h <;> (simp only [Option.some.injEq] at h; subst h)
    · next f fs h3 =>
      refine S.put hd (t := t) .same rfl rfl (.inr ⟨by simp, .exitUnlock _ _ _ hA⟩) (fun h => .inl (G (by simpa using h))) (run_one (x := .step t) ?_)
      simp [Proc.step, view, hd, hp, Proc.frameStep, Action.tid, State.ev, State.setStk, State.trace, Proc.State.ev, Proc.State.setStk, plain, announced, Msg.announces, upd_def, h3]
    · next h3 =>
      refine S.put hd (t := t) .same rfl rfl (.inr ⟨by simp, .exitFini _ _ _ hA⟩) (fun h => .inl (G (by simpa using h))) (run_one (x := .step t) ?_)
      simp [Proc.step, view, hd, hp, Proc.frameStep, Action.tid, State.ev, State.setStk, State.trace, Proc.State.ev, Proc.State.setStk, plain, announced, Msg.announces, upd_def, h3]
  | exitUnlock e st f =>
    obtain ⟨h1, -⟩ | ⟨-, hA⟩ := T
    · simp at h1
    generalize hp : k t = P at hA
    cases hA with
    | exitUnlock _ _ _ hA =>
    simp only [frameStep, Option.some.injEq, State.release] at h
    subst h
    cases hc : c.thread
    · refine S.put hd (t := t) .same rfl rfl (.inr ⟨by simp, .exitMsg _ _ _ hA⟩) (fun h => .inl (G (by simpa using h))) (run_one (x := .step t) ?_)
      simp [Proc.step, view, hd, hp, Proc.frameStep, Action.tid, State.ev, State.setStk, State.trace, Proc.State.ev, Proc.State.setStk, plain, announced, Msg.announces, upd_def, Proc.State.release, hc]
    · refine S.put hd (t := t) .same rfl rfl (.inr ⟨by simp, .exitMsg _ _ _ hA⟩) (fun h => .inl (G (by simpa using h))) (run_one (x := .step t) ?_)
      simp [Proc.step, view, hd, hp, Proc.frameStep, Action.tid, State.ev, State.setStk, State.trace, Proc.State.ev, Proc.State.setStk, plain, announced, Msg.announces, upd_def, Proc.State.release, hc]
  | exitMsg e st f =>
    obtain ⟨h1, -⟩ | ⟨-, hA⟩ := T
    · simp at h1
    generalize hp : k t = P at hA
    cases hA with
    | exitMsg _ _ _ hA =>
    simp only [frameStep, Option.some.injEq] at h
    subst h
    refine S.put hd (t := t) .same rfl rfl (.inr ⟨by simp, .logger _ (.exitCall _ _ _ hA)⟩) (fun h => .inl (G (by simpa using h))) (run_one (x := .step t) ?_)
    simp [Proc.step, view, hd, hp, Proc.frameStep, Action.tid, State.ev, State.setStk, State.trace, Proc.State.ev, Proc.State.setStk, plain, announced, Msg.announces, upd_def]
  | exitCall e st f =>
    obtain ⟨h1, -⟩ | ⟨-, hA⟩ := T
    · simp at h1
    generalize hp : k t = P at hA
    cases hA with
    | exitCall _ _ _ hA =>
    simp only [frameStep, Option.some.injEq] at h
    subst h
    refine S.stay hd (t := t) (.stay (fun _ => ⟨_, _, hp⟩) fun _ h => by cases h) rfl rfl (.inr ⟨by simp, hp ▸ .user _ (by simp) (by simp) (.exitLock _ _ hA)⟩) (fun h => .inl (G (by simpa using h))) (by simp [view, State.ev, State.setStk, State.trace, plain, announced, Msg.announces])
  | exitFini e st q =>
    obtain ⟨h1, -⟩ | ⟨-, hA⟩ := T
    · simp at h1
    generalize hp : k t = P at hA
    cases hA with
    | exitFini _ _ _ hA =>
    simp only [frameStep] at h
    split at h <;> (simp only [Option.some.injEq] at h; subst h)
    · next hq =>
      refine S.put hd (t := t) .same rfl rfl (.inr ⟨by simp, .last _ _ hA⟩) (fun h => .inl (G (by simpa using h))) (run_one (x := .step t) ?_)
      simp [Proc.step, view, hd, hp, Proc.frameStep, Action.tid, State.ev, State.setStk, State.trace, Proc.State.ev, Proc.State.setStk, plain, announced, Msg.announces, upd_def, hq]
    · next hq =>
      refine S.put hd (t := t) .same rfl rfl (.inr ⟨by simp, .logger _ (.callFini _ _ (by simp) (.exitFini _ _ _ hA))⟩) (fun h => .inl (G (by simpa using h))) (run_one (x := .step t) ?_)
      simp [Proc.step, view, hd, hp, Proc.frameStep, Action.tid, State.ev, State.setStk, State.trace, Proc.State.ev, Proc.State.setStk, plain, announced, Msg.announces, upd_def, hq]
  | callFini e q =>
    obtain ⟨h1, -⟩ | ⟨-, hA⟩ := T
    · simp at h1
    generalize hp : k t = P at hA
    cases hA with
    | callFini _ _ hnt hA =>
    simp only [frameStep, Option.some.injEq] at h
    subst h
    refine S.stay hd (t := t) (.stay (fun _ => ⟨_, _, hp⟩) fun _ h => by cases h) rfl rfl (.inr ⟨by simp, hp ▸ .user _ (by simp) (fun h => absurd h hnt) hA⟩) (fun h => .inl (G (by simpa using h))) (by simp [view, State.ev, State.setStk, State.trace, plain, announced, Msg.announces])
  | exitGrp e st =>
    obtain ⟨h1, -⟩ | ⟨-, hA⟩ := T
    · simp at h1
    generalize hp : k t = P at hA
    cases hA with
    | exitGrp _ _ hA =>
    simp only [frameStep, Option.some.injEq] at h
    subst h
    have hr : Proc.run c (view c s k) [.step t] = some (view c ({ s with dead := true }.ev (.group t e st)) k) := by
      refine run_one ?_
      simp [Proc.step, view, hd, hp, Proc.frameStep, Action.tid, State.ev, State.setStk, State.trace, Proc.State.ev, Proc.State.setStk, plain, announced, Msg.announces, upd_def]
    exact ⟨_, _, ⟨reach_run hr S.reach, (fun h => by cases h), S.gone⟩, hr, .same⟩
  | immGrp st =>
    obtain ⟨h1, -⟩ | ⟨-, hA⟩ := T
    · simp at h1
    generalize hp : k t = P at hA
    cases hA with
    | immGrp _ hA =>
    simp only [frameStep, Option.some.injEq] at h
    subst h
    rename_i p fn
    have hr : Proc.run c (view c s k) [.immExit t st, .step t] = some (view c
        (({ s with dead := true, nextE := s.nextE + 1 }.ev (.immBegin t s.nextE st)).ev (.group t s.nextE st)) (upd k t (.exitImm s.nextE st :: .user fn :: p))) := by
      refine run_two (b := (({ view c s k with nextE := s.nextE + 1 }).setStk t (.exitImm s.nextE st :: .user fn :: p)).ev (.immBegin t s.nextE st)) ?_ ?_
      · simp [Proc.step, view, hd, hp, Proc.frameStep, Action.tid, State.ev, State.setStk, State.trace, Proc.State.ev, Proc.State.setStk, plain, announced, Msg.announces, upd_def, Proc.userStep]
      · simp [Proc.step, view, hd, hp, Proc.frameStep, Action.tid, State.ev, State.setStk, State.trace, Proc.State.ev, Proc.State.setStk, plain, announced, Msg.announces, upd_def, Proc.userStep]
    exact ⟨_, _, ⟨reach_run hr S.reach, (fun h => by cases h), S.gone⟩, hr, .imm st rfl⟩

/-- User code, and the logger. -/
theorem user_sim {c s s' k} (S : Sim c s k) {x : Action} {top : Frame} {rest : List Frame} (hd : s.dead = false) (hs : s.stk x.tid = top :: rest)
    (hu : top.users = true) (hq : Quiet s x) (h : userStep c s x.tid top rest x = some s') : Next c s s' k x := by
  have T := S.top hd x.tid
  rw [hs] at T
  obtain ⟨h1, -⟩ | ⟨-, hA⟩ := T
  · simp only [List.cons.injEq] at h1; rw [h1.1] at hu; cases hu
  have G : .thrGone ∈ rest → .thrGone ∈ s.stk x.tid := fun h => by rw [hs]; exact List.mem_cons_of_mem _ h
  have G' : .thrGone ∈ top :: rest → .thrGone ∈ s.stk x.tid := fun h => by rw [hs]; exact h
  -- the last message of `exit`
  by_cases hl : ∃ e st rest', top :: rest = .logger (.exiting (some e) st) :: .exitGrp e st :: rest'
  · obtain ⟨e, st, rest', hl⟩ := hl
    simp only [List.cons.injEq] at hl
    obtain ⟨rfl, rfl⟩ := hl
    obtain ⟨v, hv⟩ := hq.2 e st _ hs
    rw [hv] at h
    simp only [userStep, Option.some.injEq] at h
    subst h
    refine S.stay hd (t := x.tid) (.stay (fun h => by rw [hv] at h; cases h) fun _ _ fn r h => by rw [hs] at h; cases h) rfl rfl (.inr ⟨by simp, ?_⟩) (fun h => .inl (G h)) rfl
    generalize k x.tid = P at hA
    cases hA with
    | logger _ h => cases h
    | last _ _ h => exact .exitGrp _ _ h
  -- elsewhere the corresponding thread runs user code
  obtain ⟨fn, p, hp⟩ : ∃ fn p, k x.tid = .user fn :: p := by
    generalize k x.tid = P at hA
    cases hA <;> first | exact ⟨_, _, rfl⟩ | exact absurd ⟨_, _, _, rfl⟩ hl | cases hu
  rw [hp] at hA
  cases x with
  | spawn t =>
    simp only [Action.tid] at hs hp G G' hA h
    simp only [userStep] at h
    split at h
    rotate_left
    · cases h
    next hc =>
    simp only [Option.some.injEq] at h
    subst h
    have hnew : k s.nextT = [] := S.reach.sinv.new s.nextT (Nat.le_refl _)
    have hne : t ≠ s.nextT := by rintro rfl; rw [hnew] at hp; cases hp
    have hr : Proc.run c (view c s k) [.spawn t] = some (view c ((({ s with nextT := s.nextT + 1 }.setStk s.nextT [.launch]).setStk t (.createdMsg s.nextT :: top :: rest)).ev
        (.spawned s.nextT)) (upd k s.nextT [.user .start])) := by
      refine run_one ?_
      simp [Proc.step, view, hd, hp, Proc.userStep, Action.tid, State.ev, State.setStk, State.trace, Proc.State.ev, Proc.State.setStk, plain, announced, Msg.announces, upd_def, hc]
    refine ⟨_, _, ⟨reach_run hr S.reach, fun _ u => ?_, fun u hu hc' => ?_⟩, hr, .same⟩
    · simp only [State.ev, State.setStk, upd_def]
      split
      · next h => subst h; rw [if_neg hne, hp]; exact .inr ⟨by simp, .createdMsg _ hA⟩
      · split
        · exact .inr ⟨by simp, .launch⟩
        · exact S.top hd u
    · refine S.gone u ?_ hc'
      simp only [State.ev, State.setStk] at hu
      split at hu
      · next h => subst h; exact G' (by simpa using hu)
      · split at hu
        · simp at hu
        · exact hu
  | regThr t =>
    simp only [Action.tid] at hs hp G G' hA h
    simp only [userStep] at h
    split at h
    rotate_left
    · cases h
    next hc =>
    simp only [Option.some.injEq] at h
    subst h
    have hr : Proc.run c (view c s k) [.regThr t] = some (view c (({ s with nextF := s.nextF + 1 }.setTd t (s.nextF :: s.tdtors t)).ev (.tReg t s.nextF)) k) := by
      refine run_one ?_
      simp [Proc.step, view, hd, hp, Proc.userStep, Action.tid, State.ev, State.setStk, State.trace, Proc.State.ev, Proc.State.setStk, plain, announced, Msg.announces, upd_def, hc, State.setTd, Proc.State.setTd]
    refine ⟨_, _, ⟨reach_run hr S.reach, fun _ u => S.top hd u, fun u hu hc' => ?_⟩, hr, .same⟩
    · by_cases hut : u = t
      · subst hut; exact absurd hu (hq.1 u rfl)
      · simp only [State.ev, State.setTd, if_neg hut]
        exact S.gone u hu hc'
  | regProg t =>
    simp only [Action.tid] at hs hp G G' hA h
    simp only [userStep] at h
    split at h
    rotate_left
    · cases h
    next hc =>
    simp only [Option.some.injEq] at h
    subst h
    refine S.put hd (t := t) .same rfl rfl (.inr ⟨by simp, .regLock hA⟩) (fun h => .inl (G' (by simpa using h))) (run_one (x := .regProg t) ?_)
    simp [Proc.step, view, hd, hp, Proc.userStep, Action.tid, State.ev, State.setStk, State.trace, Proc.State.ev, Proc.State.setStk, plain, announced, Msg.announces, upd_def, hc]
  | exit t st =>
    simp only [Action.tid] at hs hp G G' hA h
    simp only [userStep, Option.some.injEq] at h
    subst h
    refine S.put hd (t := t) .same rfl rfl (.inr ⟨by simp, .exitThr _ _ hA⟩) (fun h => .inl (G' (by simpa using h))) (run_one (x := .exit t st) ?_)
    simp [Proc.step, view, hd, hp, Proc.userStep, Action.tid, State.ev, State.setStk, State.trace, Proc.State.ev, Proc.State.setStk, plain, announced, Msg.announces, upd_def, State.beginExit, Proc.State.beginExit]
  | immExit t st =>
    simp only [Action.tid] at hs hp G G' hA h
    simp only [userStep, Option.some.injEq] at h
    subst h
    refine S.stay hd (t := t) (.stay (fun h => by cases h) fun _ h => by cases h) rfl rfl (.inr ⟨by simp, ?_⟩) (fun h => .inl (G' (by simpa using h))) ?_
    · rw [hp]; exact .logger _ (.immGrp _ hA)
    · simp [view, State.setStk, State.trace, plain, Msg.announces]
  | ret t st =>
    simp only [Action.tid] at hs hp G G' hA h
    simp only [userStep] at h
    split at h <;> (simp only [Option.some.injEq] at h; subst h)
    · refine S.stay hd (t := t) (.stay (fun h => by cases h) fun _ _ fn r h => by have h := hs.symm.trans h; cases h; exact .inl rfl) rfl rfl (.inr ⟨by simp, ?_⟩) (fun h => .inl (G (by simpa using h))) ?_
      · rw [hp]
        cases hA with
        | user _ _ _ hA => exact .logger _ (.mainDone _ hA)
      · simp [view, State.setStk, State.trace, plain, Msg.announces]
    · refine S.stay hd (t := t) (.stay (fun h => by cases h) fun _ _ fn r h => by have h := hs.symm.trans h; cases h; exact .inr (.inl rfl)) rfl rfl (.inr ⟨by simp, ?_⟩) (fun h => .inl (G (by simpa using h))) ?_
      · rw [hp]
        cases hA with
        | user _ h1 _ hA =>
          obtain rfl := h1 rfl
          cases hA
          exact .logger _ .startDone
      · simp [view, State.setStk, State.trace, plain, Msg.announces]
    · next h1 h2 =>
      cases hA with
      | logger _ hA =>
        refine S.stay hd (t := t) (.stay (fun h => by cases h) fun _ _ fn r h => by have h := hs.symm.trans h; cases h) rfl rfl (.inr ⟨(by rintro rfl; cases hA), ?_⟩) (fun h => .inl (G (by simpa using h))) rfl
        rw [hp]; exact hA
      | user _ _ htd hA =>
        by_cases hr : rest = [.thrLoop]
        · subst hr
          cases hA
          have hpend : Pending (k t) := by
            rcases htd rfl with rfl | rfl | ⟨f, rfl⟩
            · exact absurd rfl h1
            · exact absurd rfl h2
            · exact .inr ⟨f, hp⟩
          exact S.stay hd (t := t) (.stay (fun h => by cases h) fun _ _ fn r h => by have h := hs.symm.trans h; cases h; exact .inr (.inr rfl)) rfl rfl (.inl ⟨rfl, hpend⟩) (fun h => by simp at h) rfl
        · refine S.put hd (t := t) .same rfl rfl (.inr ⟨hr, hA⟩) (fun h => .inl (G (by simpa using h))) (run_one (x := .ret t st) ?_)
          have h1 : fn ≠ .main := by simpa using h1
          have h2 : fn ≠ .start := by simpa using h2
          cases fn <;> simp_all [Proc.step, view, hd, hp, Proc.userStep, Action.tid, State.ev, State.setStk, State.trace, Proc.State.ev, Proc.State.setStk, plain, announced, Msg.announces, upd_def]
      | _ => cases hu
  | step t => cases h

theorem step_sim {c s s' k} (S : Sim c s k) {x : Action} (hq : Quiet s x) (h : step c s x = some s') : Next c s s' k x := by
  unfold step at h
  split at h
  · cases h
  next hd =>
  have hd : s.dead = false := by simpa using hd
  split at h
  · cases h
  next top rest hs =>
  split at h
  · next hu => exact user_sim S hd hs hu hq h
  · split at h
    · next hx =>
      have := frame_sim S hd hs h
      rw [← hx] at this
      exact this
    · cases h

/-- Every history with messages corresponds to one without. -/
theorem QReach.sim {c s} (h : QReach c s) : ∃ k, Sim c s k := by
  induction h with
  | init =>
    refine ⟨fun t => if t = 0 then [.entry] else [], .init, fun _ t => ?_, fun t ht => ?_⟩
    · simp only [LogProc.init]
      split
      · exact .inr ⟨by simp, .entry .nil⟩
      · exact .inr ⟨by simp, .nil⟩
    · simp only [LogProc.init] at ht
      split at ht <;> simp at ht
  | step _ hq hs ih =>
    obtain ⟨k, S⟩ := ih
    obtain ⟨k', -, S', -⟩ := step_sim S hq hs
    exact ⟨k', S'⟩

end Origin.LogProc
