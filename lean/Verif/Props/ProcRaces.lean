import Verif.Props.FairProc
import Verif.Props.SingleThread
import Verif.Spec.ProcRaces
/-! # C81: `program::at_exit` synchronises, and the program's lists are free of data races -/

namespace Origin.Proc

variable {c : Cfg} {st : Nat → State} {act : Nat → Option Action} {s s' : State}

theorem HB.lt {i j : Nat} (h : HB c st act i j) : i < j := by
  induction h with
  | po h | lock h | spawn h => exact h
  | trans _ _ h1 h2 => exact Nat.lt_trans h1 h2

/-- What a step does to the lock. -/
theorem lock_step (hc : c.thread = true) {x : Action} (h : step c s x = some s') :
    (s'.lock = s.lock ∧ ∀ t, x = .step t → (∀ f r, s.stk t ≠ .regUnlock f :: r) ∧ ∀ e v f r, s.stk t ≠ .exitUnlock e v f :: r) ∨
    (∃ t, x = .step t ∧ s.lock = none ∧ s'.lock = some t ∧ ((∃ r, s.stk t = .regLock :: r) ∨ ∃ e v r, s.stk t = .exitLock e v :: r ∧ c.programAtExit = true)) ∨
    (∃ t, x = .step t ∧ s'.lock = none ∧ ((∃ f r, s.stk t = .regUnlock f :: r) ∨ ∃ e v f r, s.stk t = .exitUnlock e v f :: r)) := by
  unfold step at h
  split at h
  · cases h
  · split at h
    · cases h
    · next fn rest hs =>
      left
      refine ⟨?_, fun t ht => ?_⟩
      · unfold userStep at h
        split at h <;> (try split at h) <;> cases h <;> simp [State.ev, State.setStk, State.setTd, State.beginExit]
      · subst ht
        simp only [Action.tid] at hs
        constructor <;> (intros; rw [hs]; simp)
    · next fr rest hnu hs =>
      split at h
      · next hx =>
        have acq : ∀ {s1}, s.acquire c x.tid = some s1 → s.lock = none ∧ s1.lock = some x.tid := by
          intro s1 h
          rcases acquire_some h with ⟨-, h1, rfl⟩ | ⟨h1, -⟩
          · exact ⟨h1, rfl⟩
          · rw [hc] at h1; cases h1
        have other : s'.lock = s.lock → (∀ f, fr ≠ .regUnlock f) → (∀ e v f, fr ≠ .exitUnlock e v f) →
            (s'.lock = s.lock ∧ ∀ t, x = .step t → (∀ f r, s.stk t ≠ .regUnlock f :: r) ∧ ∀ e v f r, s.stk t ≠ .exitUnlock e v f :: r) := by
          intro h1 h2 h3
          refine ⟨h1, fun t ht => ?_⟩
          have : x.tid = t := by rw [ht]; rfl
          rw [this] at hs
          exact ⟨fun f r hr => h2 f (by rw [hs] at hr; injection hr), fun e v f r hr => h3 e v f (by rw [hs] at hr; injection hr)⟩
        cases fr with
        | user fn => exact (hnu _ rfl).elim
        | regLock =>
          simp only [frameStep, Option.map_eq_some_iff] at h
          obtain ⟨s1, h1, rfl⟩ := h
          exact .inr (.inl ⟨_, hx, (acq h1).1, (acq h1).2, .inl ⟨_, hs⟩⟩)
        | exitLock e v =>
          simp only [frameStep] at h
          split at h
          · next hp =>
            rw [Option.map_eq_some_iff] at h
            obtain ⟨s1, h1, rfl⟩ := h
            exact .inr (.inl ⟨_, hx, (acq h1).1, (acq h1).2, .inr ⟨_, _, _, hs, hp⟩⟩)
          · simp only [Option.some.injEq] at h; subst h
            exact .inl (other (by simp [State.ev, State.setStk]) (by simp) (by simp))
        | regUnlock f =>
          simp only [frameStep, Option.some.injEq] at h; subst h
          exact .inr (.inr ⟨_, hx, by simp [State.ev, State.setStk, State.release, hc], .inl ⟨_, _, hs⟩⟩)
        | exitUnlock e v f =>
          simp only [frameStep, Option.some.injEq] at h; subst h
          exact .inr (.inr ⟨_, hx, by simp [State.setStk, State.release, hc], .inr ⟨_, _, _, _, hs⟩⟩)
        | _ =>
          left
          refine other ?_ (by simp) (by simp)
          simp only [frameStep] at h
          (try split at h) <;> cases h <;> simp [State.ev, State.setStk, State.setTd]
      · cases h

/-- The thread that gives back the lock had it. -/
theorem unlock_holder (hc : c.thread = true) (R : Reach c s) {t : Tid} (h : (∃ f r, s.stk t = .regUnlock f :: r) ∨ ∃ e v f r, s.stk t = .exitUnlock e v f :: r) : s.lock = some t := by
  rcases h with ⟨f, r, h⟩ | ⟨e, v, f, r, h⟩
  · exact (R.linv.lk1 hc t _ (by rw [h]; exact List.mem_cons_self) rfl).1
  · exact (R.linv.lk1 hc t _ (by rw [h]; exact List.mem_cons_self) rfl).1

/-- From the moment `t` has the lock: it still has it, or it has given it back since, and whoever has it now has taken it after that. -/
theorem lock_history (hc : c.thread = true) (X : IsExec c st act) {i : Nat} {t : Tid} (hi : (st i).lock = some t) : ∀ d,
    (st (i + d)).lock = some t ∨ ∃ k, i ≤ k ∧ k < i + d ∧ Unlocks c st act k t ∧
      ∀ u, (st (i + d)).lock = some u → ∃ l, k < l ∧ l < i + d ∧ Locks c st act l u := by
  intro d
  induction d with
  | zero => exact .inl hi
  | succ d ih =>
    rw [show i + (d + 1) = i + d + 1 by omega]
    cases hx : act (i + d) with
    | none =>
      rw [X.idle _ hx]
      rcases ih with h | ⟨k, h1, h2, h3, h4⟩
      · exact .inl h
      · refine .inr ⟨k, h1, by omega, h3, fun u hu => ?_⟩
        obtain ⟨l, h5, h6, h7⟩ := h4 u hu
        exact ⟨l, h5, by omega, h7⟩
    | some x =>
      have hs := X.next _ _ hx
      rcases lock_step hc hs with ⟨e1, -⟩ | ⟨u, rfl, e1, e2, e3⟩ | ⟨u, rfl, e1, e2⟩
      · rw [e1]
        rcases ih with h | ⟨k, h1, h2, h3, h4⟩
        · exact .inl h
        · refine .inr ⟨k, h1, by omega, h3, fun u hu => ?_⟩
          obtain ⟨l, h5, h6, h7⟩ := h4 u hu
          exact ⟨l, h5, by omega, h7⟩
      · rcases ih with h | ⟨k, h1, h2, h3, h4⟩
        · rw [e1] at h; cases h
        · refine .inr ⟨k, h1, by omega, h3, fun w hw => ?_⟩
          rw [e2] at hw; injection hw with hw; subst hw
          exact ⟨i + d, h2, by omega, hx, hc, e3⟩
      · have hu := unlock_holder hc (X.reach _) e2
        right
        rcases ih with h | ⟨k, h1, h2, h3, h4⟩
        · rw [hu] at h; injection h with h; subst h
          exact ⟨i + d, by omega, by omega, ⟨hx, hc, e2⟩, fun w hw => by rw [e1] at hw; cases hw⟩
        · exact ⟨k, h1, by omega, h3, fun w hw => by rw [e1] at hw; cases hw⟩

theorem access_holder (hc : c.thread = true) (X : IsExec c st act) {i : Nat} {t : Tid} (h : Accesses st act i t) : (st i).lock = some t := by
  obtain ⟨-, ⟨r, h⟩ | ⟨e, v, r, h⟩⟩ := h
  · exact ((X.reach i).linv.lk1 hc t _ (by rw [h]; exact List.mem_cons_self) rfl).1
  · exact ((X.reach i).linv.lk1 hc t _ (by rw [h]; exact List.mem_cons_self) rfl).1

/-- **C81 (no data race).** Of any two accesses to the list of the program's functions, in any execution, by any threads, one happens before the other. -/
theorem C81_no_race (X : IsExec c st act) {i j : Nat} {t u : Tid} (hij : i < j) (hi : Accesses st act i t) (hj : Accesses st act j u) : HB c st act i j := by
  by_cases htu : t = u
  · subst htu; exact .po hij hi.1 hj.1 rfl
  cases hc : c.thread with
  | false =>
    have one : ∀ {k w}, Accesses st act k w → w = 0 := by
      intro k w h
      refine Classical.byContradiction fun hw => ?_
      have := (X.reach k).single hc w hw
      obtain ⟨-, ⟨r, h⟩ | ⟨e, v, r, h⟩⟩ := h <;> (rw [this] at h; cases h)
    exact absurd ((one hi).trans (one hj).symm) htu
  | true =>
    have h1 := access_holder hc X hi
    have h2 := access_holder hc X hj
    obtain ⟨d, rfl⟩ : ∃ d, j = i + d := ⟨j - i, by omega⟩
    rcases lock_history hc X h1 d with h | ⟨k, k1, k2, k3, k4⟩
    · rw [h2] at h; injection h with h; exact absurd h.symm htu
    · obtain ⟨l, l1, l2, l3⟩ := k4 u h2
      have hik : i < k := by
        rcases Nat.lt_or_eq_of_le k1 with h | rfl
        · exact h
        · exfalso
          obtain ⟨-, h3⟩ := hi
          obtain ⟨-, -, h4⟩ := k3
          rcases h3 with ⟨r, h3⟩ | ⟨e, v, r, h3⟩ <;> rcases h4 with ⟨f, r', h4⟩ | ⟨e', v', f, r', h4⟩ <;> (rw [h3] at h4; cases h4)
      exact .trans (.po hik hi.1 k3.1 rfl) (.trans (.lock l1 k3 l3) (.po l2 l3.1 hj.1 rfl))

/-- Only accesses change the list: `Accesses` leaves none out. -/
theorem C81_changes (X : IsExec c st act) {i : Nat} (h : (st (i + 1)).dtors ≠ (st i).dtors) : ∃ t, Accesses st act i t := by
  cases hx : act i with
  | none => exact absurd (by rw [X.idle i hx]) h
  | some x =>
    have hs := X.next i x hx
    refine Classical.byContradiction fun hno => h ?_
    generalize hs' : st (i + 1) = s' at hs
    unfold step at hs
    split at hs
    · cases hs
    · split at hs
      · cases hs
      · unfold userStep at hs
        split at hs <;> (try split at hs) <;> cases hs <;> rfl
      · next fr rest hnu hk =>
        split at hs
        · next hxt =>
          cases fr with
          | regPush => exact absurd ⟨x.tid, by rw [hx, ← hxt], .inl ⟨_, hk⟩⟩ hno
          | exitPop e v => exact absurd ⟨x.tid, by rw [hx, ← hxt], .inr ⟨_, _, _, hk⟩⟩ hno
          | regLock =>
            simp only [frameStep, Option.map_eq_some_iff] at hs
            obtain ⟨s1, h1, rfl⟩ := hs
            exact (acquire_fields h1).2.2.1
          | exitLock e v =>
            simp only [frameStep] at hs
            split at hs
            · rw [Option.map_eq_some_iff] at hs
              obtain ⟨s1, h1, rfl⟩ := hs
              exact (acquire_fields h1).2.2.1
            · cases hs; rfl
          | regUnlock f => simp only [frameStep] at hs; cases hs; simp [State.ev, State.setStk]
          | exitUnlock e v f => simp only [frameStep] at hs; cases hs; simp [State.setStk]
          | user fn => exact (hnu _ rfl).elim
          | _ =>
            simp only [frameStep] at hs
            (try split at hs) <;> cases hs <;> rfl
        · cases hs

/-- The list of a thread's own functions is changed by that thread only, so accesses to it are in program order. -/
theorem C81_own_list (X : IsExec c st act) {i : Nat} {t : Tid} (h : (st (i + 1)).tdtors t ≠ (st i).tdtors t) : ∃ x, act i = some x ∧ x.tid = t := by
  cases hx : act i with
  | none => exact absurd (by rw [X.idle i hx]) h
  | some x =>
    have hs := X.next i x hx
    refine ⟨x, rfl, Classical.byContradiction fun hno => h ?_⟩
    have hno' : ¬ t = x.tid := fun h => hno h.symm
    generalize hs' : st (i + 1) = s' at hs
    unfold step at hs
    split at hs
    · cases hs
    · split at hs
      · cases hs
      · unfold userStep at hs
        split at hs <;> (try split at hs) <;> cases hs <;> simp [State.ev, State.setStk, State.setTd, State.beginExit, hno']
      · next fr rest hnu hk =>
        split at hs
        · unfold frameStep at hs
          split at hs <;> (try split at hs) <;>
            (try (simp only [Option.map_eq_some_iff] at hs; obtain ⟨s1, h1, rfl⟩ := hs; simp [State.setStk, acquire_fields h1])) <;>
            cases hs <;> simp [State.ev, State.setStk, State.setTd, hno']
        · cases hs

/-- What kind of step an event is. -/
def Ev.Step (s : State) (x : Action) : Ev → Prop
  | .pReg t f => x = .step t ∧ f = s.nextF ∧ ∃ r, s.stk t = .regPush :: r
  | .pTake t _ _ => x = .step t ∧ ∃ e v r, s.stk t = .exitPop e v :: r
  | .pCall t _ _ => x = .step t ∧ ∃ e v f r, s.stk t = .exitCall e v f :: r
  | .runtimeInit => ∃ t r, x = .step t ∧ s.stk t = .entry :: r
  | _ => True

theorem step_log {x : Action} (h : step c s x = some s') {ev : Ev} (h0 : ev ∉ s.log) (h1 : ev ∈ s'.log) : ev.Step s x := by
  have new : ∀ {e : Ev}, s'.log = e :: s.log → e.Step s x → ev.Step s x := by
    intro e h2 h3
    rw [h2] at h1
    rcases List.mem_cons.mp h1 with rfl | h1
    · exact h3
    · exact absurd h1 h0
  have old : s'.log = s.log → ev.Step s x := fun h2 => absurd (h2 ▸ h1) h0
  unfold step at h
  split at h
  · cases h
  · split at h
    · cases h
    · next fn rest hs =>
      unfold userStep at h
      split at h
      case _ => split at h <;> cases h; exact new rfl trivial
      case _ => split at h <;> cases h; exact new rfl trivial
      case _ => split at h <;> cases h; exact old rfl
      case _ => cases h; exact new rfl trivial
      case _ => cases h; exact new rfl trivial
      case _ =>
        split at h <;> cases h
        · simp only [State.beginExit, State.ev, State.setStk, List.mem_cons] at h1
          rcases h1 with rfl | rfl | h1
          · trivial
          · trivial
          · exact absurd h1 h0
        · exact old rfl
        · exact old rfl
      case _ => cases h
    · next fr rest hnu hs =>
      split at h
      · next hx =>
        cases fr with
        | user fn => exact (hnu _ rfl).elim
        | regLock =>
          simp only [frameStep, Option.map_eq_some_iff] at h
          obtain ⟨s1, h2, rfl⟩ := h
          exact old (by simp [State.setStk, acquire_fields h2])
        | exitLock e v =>
          simp only [frameStep] at h
          split at h
          · rw [Option.map_eq_some_iff] at h
            obtain ⟨s1, h2, rfl⟩ := h
            exact old (by simp [State.setStk, acquire_fields h2])
          · cases h; exact new rfl trivial
        | regUnlock f => simp only [frameStep] at h; cases h; exact new (e := .pRegRet x.tid f) (by simp [State.ev, State.setStk]) trivial
        | exitUnlock e v f => simp only [frameStep] at h; cases h; exact old (by simp [State.setStk])
        | entry => simp only [frameStep] at h; cases h; exact new rfl ⟨_, _, hx, hs⟩
        | regPush => simp only [frameStep] at h; cases h; exact new rfl ⟨hx, rfl, _, hs⟩
        | exitCall e v f => simp only [frameStep] at h; cases h; exact new rfl ⟨hx, _, _, _, _, hs⟩
        | exitPop e v =>
          simp only [frameStep] at h
          split at h <;> cases h
          · exact new rfl ⟨hx, _, _, _, hs⟩
          · exact new rfl trivial
        | _ =>
          simp only [frameStep] at h
          (try split at h) <;> cases h <;> first | exact new rfl trivial | exact old rfl
      · cases h

theorem happens_act (X : IsExec c st act) {i : Nat} {ev : Ev} (h : Happens st i ev) : ∃ x, act i = some x ∧ ev.Step (st i) x := by
  cases hx : act i with
  | none => exact absurd h.2 (by rw [X.idle i hx]; exact h.1)
  | some x => exact ⟨x, rfl, step_log (X.next i x hx) h.1 h.2⟩

/-- **C81 (`program::at_exit` synchronises).** If `t` registers `f` in step `i`, and `exit` calls it, on thread `u`, in step `j`: everything `t` did up to the registration happens before
everything `u` does from the call on — so `f` sees all that its registering thread had done. -/
theorem C81_synchronizes (X : IsExec c st act) {i j : Nat} {t u : Tid} {e : Exit} {f : FnId} (hi : Happens st i (.pReg t f)) (hj : Happens st j (.pCall u e f))
    {k l : Nat} {x y : Action} (hk : k ≤ i) (hx : act k = some x) (ht : x.tid = t) (hl : j ≤ l) (hy : act l = some y) (hu : y.tid = u) : HB c st act k l := by
  obtain ⟨xi, a1, rfl, a3, r, a2⟩ := happens_act X hi
  obtain ⟨xj, b1, rfl, b2⟩ := happens_act X hj
  -- the step in which it is taken off the list
  have htake : .pTake u e f ∈ (st j).log := by
    obtain ⟨newer, older, hlg⟩ := List.append_of_mem hj.2
    have h1 := ((X.reach (j + 1)).pinv.tr.at hlg).1
    have h2 : .pTake u e f ∈ (st (j + 1)).log := by rw [hlg]; simp [h1]
    refine Classical.byContradiction fun hno => ?_
    obtain ⟨-, e', v, r', h3⟩ := step_log (X.next j _ b1) hno h2
    obtain ⟨e2, v2, f2, r2, b2⟩ := b2
    rw [h3] at b2; cases b2
  obtain ⟨m, xm, hm, m1, m2, m3⟩ := X.moment htake
  obtain ⟨m4, m5⟩ := step_log (X.next m _ m1) m2 m3
  subst m4
  have hacc : Accesses st act m u := ⟨m1, .inr m5⟩
  have hacci : Accesses st act i t := ⟨a1, .inl ⟨r, a2⟩⟩
  have him : i < m := by
    -- it had been registered before, once
    obtain ⟨newer, older, hlg⟩ := List.append_of_mem m3
    obtain ⟨⟨t', h1⟩, -⟩ := (X.reach (m + 1)).pinv.tr.at hlg
    have h2 : .pReg t' f ∈ (st (m + 1)).log := by rw [hlg]; simp [h1]
    refine Classical.byContradiction fun hno => ?_
    rcases Nat.lt_or_eq_of_le (Nat.not_lt.mp hno) with hmi | rfl
    · have h3 := (X.reach i).pinv.fresh f ⟨t', X.toSteps.log_stays hmi h2⟩
      exact absurd h3 (by rw [a3]; exact Nat.lt_irrefl _)
    · rw [m1] at a1
      injection a1 with a1; injection a1 with a1; subst a1
      obtain ⟨e', v, r', m5⟩ := m5
      rw [a2] at m5; cases m5
  have h1 := C81_no_race X him hacci hacc
  have h2 : HB c st act k m := by
    rcases Nat.lt_or_eq_of_le hk with h | rfl
    · exact .trans (.po h hx a1 ht) h1
    · exact h1
  exact .trans h2 (.po (by omega) m1 hy (by rw [hu]; rfl))

/-- A thread that does something is the main thread or has been created. -/
theorem created (X : IsExec c st act) (u : Tid) : ∀ j, (st j).stk u ≠ [] → u = 0 ∨ ∃ k p, k < j ∧ act k = some (.spawn p) ∧ u = (st k).nextT := by
  intro j
  induction j with
  | zero =>
    intro h
    rw [X.start] at h
    left
    refine Classical.byContradiction fun h0 => h ?_
    simp [init, h0]
  | succ j ih =>
    intro h
    have up : (u = 0 ∨ ∃ k p, k < j ∧ act k = some (.spawn p) ∧ u = (st k).nextT) → u = 0 ∨ ∃ k p, k < j + 1 ∧ act k = some (.spawn p) ∧ u = (st k).nextT :=
      fun h => h.imp id fun ⟨k, p, h1, h2⟩ => ⟨k, p, by omega, h2⟩
    by_cases h0 : (st j).stk u = []
    · cases hx : act j with
      | none => rw [X.idle j hx] at h; exact absurd h0 h
      | some x =>
        have hs := X.next j x hx
        have hxu : x.tid ≠ u := by
          rintro rfl
          unfold step at hs
          split at hs
          · cases hs
          · rw [h0] at hs; cases hs
        by_cases hu : u = (st j).nextT
        · refine .inr ⟨j, x.tid, Nat.lt_succ_self j, ?_, hu⟩
          have hxu' : ¬ u = x.tid := fun h => hxu h.symm
          rw [hx]
          refine Classical.byContradiction fun hno => h ?_
          have hsp : ∀ p, x ≠ .spawn p := by rintro p rfl; exact hno rfl
          generalize hs' : st (j + 1) = s' at hs
          rw [← h0]
          unfold step at hs
          split at hs
          · cases hs
          · split at hs
            · cases hs
            · unfold userStep at hs
              split at hs <;> (try split at hs) <;> cases hs <;> first | exact absurd rfl (hsp _) | simp [State.ev, State.setStk, State.setTd, State.beginExit, hxu']
            · next fr rest hnu hk =>
              split at hs
              · unfold frameStep at hs
                split at hs <;> (try split at hs) <;>
                  (try (simp only [Option.map_eq_some_iff] at hs; obtain ⟨s1, h1, rfl⟩ := hs; simp [State.setStk, acquire_fields h1, hxu'])) <;>
                  cases hs <;> simp [State.ev, State.setStk, State.setTd, hxu']
              · cases hs
        · rw [other_stk hs hxu hu] at h; exact absurd h0 h
    · exact up (ih h0)

/-- **C81 (start).** What program start sets up for all threads (`init_runtime`: the thread-local storage image, the default stack size) happens before everything that comes after it,
on any thread. -/
theorem C81_startup {n m : Nat} (hok : c.Ok n m) (X : IsExec c st act) {i : Nat} (hi : Happens st i .runtimeInit) : ∀ j y, i < j → act j = some y → HB c st act i j := by
  obtain ⟨x, h1, t, r, rfl, h2⟩ := happens_act X hi
  have ht : t = 0 := (X.reach i).sinv.boot t _ (by rw [h2]; exact List.mem_cons_self) rfl
  subst ht
  intro j
  induction j using Nat.strongRecOn with
  | ind j ih =>
    intro y hij hy
    by_cases h0 : y.tid = 0
    · exact .po hij h1 hy h0.symm
    · have hne : (st j).stk y.tid ≠ [] := by
        intro he
        have hs := X.next j y hy
        unfold step at hs
        split at hs
        · cases hs
        · rw [he] at hs; cases hs
      rcases created X y.tid j hne with h | ⟨k, p, hk, hkp, hku⟩
      · exact absurd h h0
      · have hik : i < k := by
          refine Classical.byContradiction fun hno => ?_
          rcases Nat.lt_or_eq_of_le (Nat.not_lt.mp hno) with hki | rfl
          · have hl : (st (k + 1)).log = .spawned (st k).nextT :: (st k).log := by
              have hs := X.next k _ hkp
              unfold step at hs
              split at hs
              · cases hs
              · split at hs
                · cases hs
                · simp only [userStep] at hs
                  split at hs
                  · simp only [Option.some.injEq] at hs; rw [← hs]; rfl
                  · cases hs
                · split at hs
                  · next h => cases h
                  · cases hs
            rcases ((X.reach (k + 1)).binv hok).first with h | h
            · rw [hl] at h; cases h
            · exact hi.1 (X.toSteps.log_stays hki (List.mem_of_getLast? h))
          · rw [h1] at hkp; cases hkp
        exact .trans (ih k hk _ hik hkp) (.spawn hk hkp hy hku)

/-! ### Concrete cases -/

/-- `origin_main` creates a thread; it registers a function; the main thread calls `exit`, which calls it. -/
def crossRun : List Action := toMain ++ [.spawn 0, .regProg 1] ++ steps 1 3 ++ [.exit 0 3] ++ steps 0 5

instance (st : Nat → State) (i : Nat) (e : Ev) : Decidable (Happens st i e) := by unfold Happens; infer_instance

theorem cross_exec : IsExec demo (stAt demo crossRun) (crossRun[·]?) := exec_of (by decide)

example : Happens (stAt demo crossRun) 0 .runtimeInit ∧ Happens (stAt demo crossRun) 9 (.pReg 1 0) ∧ Happens (stAt demo crossRun) 16 (.pCall 0 0 0) ∧
    Accesses (stAt demo crossRun) (crossRun[·]?) 9 1 ∧ Accesses (stAt demo crossRun) (crossRun[·]?) 14 0 := by
  refine ⟨by decide, by decide, by decide, ⟨by decide, .inl ⟨[.user .start], by decide⟩⟩, by decide, .inr ⟨0, 3, [.user .main], by decide⟩⟩

/-- The new thread's registration happens before the call, and so does its call of `at_exit`. -/
example : HB demo (stAt demo crossRun) (crossRun[·]?) 7 16 :=
  C81_synchronizes cross_exec (i := 9) (j := 16) (t := 1) (u := 0) (e := 0) (f := 0) (by decide) (by decide) (k := 7) (l := 16) (x := .regProg 1) (y := .step 0)
    (by decide) (by decide) rfl (by decide) (by decide) rfl

/-- Not everything is ordered: what the two threads do without the lock is not. -/
theorem C81_not_total : ∃ st act, IsExec demo st act ∧ (act 7).map Action.tid = some 1 ∧ (act 8).map Action.tid = some 0 ∧ ¬ HB demo st act 7 8 := by
  have X : IsExec demo (stAt demo (toMain ++ [.spawn 0, .regThr 1, .regThr 0])) ((toMain ++ [.spawn 0, .regThr 1, .regThr 0])[·]?) := exec_of (by decide)
  refine ⟨_, _, X, by decide, by decide, fun h => ?_⟩
  have key : ∀ {i j}, HB demo (stAt demo (toMain ++ [.spawn 0, .regThr 1, .regThr 0])) ((toMain ++ [.spawn 0, .regThr 1, .regThr 0])[·]?) i j → i ≠ 7 := by
    intro i j h
    have hlt := h.lt
    induction h with
    | @po i j x y hij hx hy ht =>
      rintro rfl
      have hj : j < 9 := by
        have := (List.getElem?_eq_some_iff.mp hy).1
        simpa [toMain] using this
      have : j = 8 := by omega
      subst this
      have h1 : some x = some (.regThr 1) := hx.symm.trans (by decide)
      have h2 : some y = some (.regThr 0) := hy.symm.trans (by decide)
      injection h1 with h1; injection h2 with h2
      subst h1; subst h2
      cases ht
    | lock _ hu => rintro rfl; exact absurd hu.1 (by simp [toMain])
    | spawn _ hx => rintro rfl; simp [toMain] at hx
    | trans h1 _ ih1 _ => exact ih1 h1.lt
  exact key h rfl

end Origin.Proc
