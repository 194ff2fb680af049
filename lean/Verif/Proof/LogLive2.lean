import Verif.Proof.LogLive
/-! # Liveness with messages: fairness and user code that returns -/

namespace Origin.LogProc

open Proc (Cfg Fn Tid FnId Exit Ev Action)

variable {c : Cfg} {s s' : State} {st : Nat → State} {act : Nat → Option Action} {k : Nat → Tid → List Proc.Frame} {xs : Nat → List Action}

theorem lacq_fields {s1 : State} {t : Tid} (h : s.acquire c t = some s1) : s1.stk = s.stk ∧ s1.tdtors = s.tdtors ∧ s1.nextT = s.nextT ∧ s1.log = s.log ∧ s1.dead = s.dead := by
  unfold State.acquire at h
  split at h
  · split at h
    · injection h with h; subst h; exact ⟨rfl, rfl, rfl, rfl, rfl⟩
    · cases h
  · injection h with h; subst h; exact ⟨rfl, rfl, rfl, rfl, rfl⟩

theorem lrel_fields : (s.release c).stk = s.stk ∧ (s.release c).tdtors = s.tdtors ∧ (s.release c).log = s.log ∧ (s.release c).dead = s.dead := by
  unfold State.release
  split <;> exact ⟨rfl, rfl, rfl, rfl⟩

theorem lstep_live {x : Action} (h : step c s x = some s') : s.dead = false := by
  unfold step at h
  split at h
  · cases h
  · next hd => simpa using hd

/-- What the owner of a stack can do. -/
theorem lstep_own {x : Action} {fr : Frame} {rest : List Frame} (h : step c s x = some s') (hs : s.stk x.tid = fr :: rest) (hu : fr.users = false) :
    x = .step x.tid ∧ frameStep c s x.tid rest fr = some s' := by
  simp only [step, lstep_live h, hs, hu, Bool.false_eq_true, if_false] at h
  split at h
  · next hx => exact ⟨hx, h⟩
  · cases h

theorem lstep_user {x : Action} {fr : Frame} {rest : List Frame} (h : step c s x = some s') (hs : s.stk x.tid = fr :: rest) (hu : fr.users = true) :
    userStep c s x.tid fr rest x = some s' := by
  simpa only [step, lstep_live h, hs, hu, Bool.false_eq_true, if_false, if_true] using h

/-- Other threads leave a thread's stack alone. -/
theorem lstk_other {x : Action} {t : Tid} (h : step c s x = some s') (hx : x.tid ≠ t) (hnt : t ≠ s.nextT) : s'.stk t = s.stk t := by
  have hx' : t ≠ x.tid := Ne.symm hx
  unfold step at h
  split at h
  · cases h
  · split at h
    · cases h
    · next fr rest hs =>
      split at h
      · cases x <;> simp only [userStep, Action.tid] at h hx' <;> (repeat' split at h) <;> (try cases h) <;>
          simp [State.ev, State.setStk, State.setTd, State.beginExit, State.trace, hx', hnt]
      · split at h
        · generalize x.tid = u at *
          cases fr <;> simp only [frameStep] at h <;> (repeat' split at h) <;> (try cases h) <;> (try rw [Option.map_eq_some_iff] at h) <;>
            (try (obtain ⟨s1, h1, h2⟩ := h; subst h2)) <;>
            simp [State.ev, State.setStk, State.setTd, State.beginExit, State.trace, hx', lrel_fields] <;> (try simp [lacq_fields h1])
        · cases h

theorem Top.ne {l p} (h : Top l p) (hl : l ≠ []) : p ≠ [] := by
  rcases h with ⟨-, rfl | ⟨f, rfl⟩⟩ | ⟨-, h⟩
  · simp
  · simp
  · cases h <;> simp at hl ⊢

theorem Sim.fresh {k : Tid → List Proc.Frame} (S : Sim c s k) (hd : s.dead = false) {t : Tid} (hn : s.stk t ≠ []) : t ≠ s.nextT := by
  rintro rfl
  exact (S.top hd s.nextT).ne hn (S.reach.sinv.new _ (Nat.le_refl _))

/-- The stack of a thread stays until the thread does something. -/
theorem Lift.stays (L : Lift c st act k xs) (X : IsLExec c st act) {t : Tid} {l : List Frame} (hl : l ≠ []) (m : Nat)
    (hm : (st m).stk t = l) : (∃ x, act m = some x ∧ x.tid = t) ∨ (st (m + 1)).stk t = l := by
  cases ha : act m with
  | none => rw [X.idle m ha]; exact .inr hm
  | some x =>
    by_cases hx : x.tid = t
    · exact .inl ⟨x, rfl, hx⟩
    · have h := (X.next m x ha).2
      exact .inr (by rw [lstk_other h hx ((L.sim m).fresh (lstep_live h) (by rw [hm]; exact hl))]; exact hm)

/-- A thread inside origin takes its step, or is stuck. -/
theorem Lift.steps (L : Lift c st act k xs) (X : IsLExec c st act) (F : LFair c st act) {n : Nat} {t : Tid} {fr : Frame} {rest : List Frame}
    (hs : (st n).stk t = fr :: rest) (hu : fr.users = false) :
    ∃ m, n ≤ m ∧ (st m).stk t = fr :: rest ∧ (act m = some (.step t) ∨ step c (st m) (.step t) = none) := by
  obtain ⟨j, hj, h⟩ := F t n
  rcases Proc.hold_until (P := fun m => (st m).stk t = fr :: rest) (Q := fun m => act m = some (.step t)) hj hs
    (fun m _ hm => by
      rcases L.stays X (by simp) m hm with ⟨x, h1, h2⟩ | h1
      · subst h2
        left
        rw [h1, ← (lstep_own (X.next m x h1).2 hm hu).1]
      · exact .inr h1) with ⟨m, h1, h2, h3⟩ | h1
  · exact ⟨m, h1, h2, .inl h3⟩
  · exact ⟨j, hj, h1, h⟩

/-- A thread inside origin that does not wait for the lock gets on with it. -/
theorem Lift.goes_on (L : Lift c st act k xs) (X : IsLExec c st act) (F : LFair c st act) {n : Nat} {t : Tid} {fr : Frame} {rest : List Frame}
    (hs : (st n).stk t = fr :: rest) (hu : fr.users = false) (h1 : fr ≠ .regLock) (h2 : ∀ e v, fr ≠ .exitLock e v) :
    ∃ m, n ≤ m ∧ ((st m).dead = true ∨ (act m = some (.step t) ∧ (st m).stk t = fr :: rest ∧ frameStep c (st m) t rest fr = some (st (m + 1)))) := by
  obtain ⟨m, hm, h3, h4⟩ := L.steps X F hs hu
  rcases h4 with h4 | h4
  · exact ⟨m, hm, .inr ⟨h4, h3, (lstep_own (X.next m _ h4).2 h3 hu).2⟩⟩
  · refine ⟨m, hm, .inl ?_⟩
    cases hd : (st m).dead with
    | true => rfl
    | false =>
      obtain ⟨s', h5⟩ := frame_progress (c := c) hd h3 hu (fun _ _ => ⟨h1, fun e v h => absurd h (h2 e v)⟩)
      rw [h4] at h5; cases h5

/-! ### fairness -/

theorem Lift.view_step (L : Lift c st act k xs) {n : Nat} {y : Action} {ys : List Action} (h : xs n = y :: ys) : ∃ s1, Proc.step c (view c (st n) (k n)) y = some s1 := by
  have hr := L.run n
  rw [h] at hr
  simp only [Proc.run, Option.bind_eq_some_iff] at hr
  obtain ⟨b, hb, -⟩ := hr
  exact ⟨b, hb⟩

/-- Where the thread is inside origin without messages too, its step is the same. -/
theorem Lift.same_step (L : Lift c st act k xs) {n : Nat} {t : Tid} {fr : Proc.Frame} {p : List Proc.Frame} (hk : k n t = fr :: p) (hu : ∀ fn, fr ≠ .user fn)
    (ha : act n = some (.step t)) : xs n = [.step t] := by
  have F := L.next n _ ha
  have other : ∀ y ys, xs n = y :: ys → y.tid = t → y = .step t := by
    intro y ys h1 h2
    obtain ⟨s1, h3⟩ := L.view_step h1
    subst h2
    exact (Proc.step_own h3 hk hu).1
  generalize hxs : xs n = ys at *
  cases F with
  | stay h1 h2 => obtain ⟨fn, q, h3⟩ := h1 rfl; rw [show (Action.step t).tid = t from rfl, hk] at h3; injection h3 with h3; exact absurd h3 (hu fn)
  | same => rfl
  | ret v h => cases other _ _ rfl rfl
  | retStep v h => cases other _ _ rfl rfl
  | imm v h => cases other _ _ rfl rfl

/-- A thread that is inside origin without messages is inside origin, or in the last message. -/
theorem Top.origin {l p fr} (h : Top l (fr :: p)) (hu : ∀ fn, fr ≠ .user fn) : (∃ f r, l = f :: r ∧ f.users = false ∧ (f = .regLock → fr = .regLock) ∧ (∀ e v, f = .exitLock e v → fr = .exitLock e v)) ∨
    ∃ e v r, l = .logger (.exiting (some e) v) :: .exitGrp e v :: r := by
  generalize hP : fr :: p = P at h
  rcases h with ⟨-, rfl | ⟨f, rfl⟩⟩ | ⟨-, h⟩
  · injection hP with h; exact absurd h (hu _)
  · injection hP with h; exact absurd h (hu _)
  · cases h <;> first
      | (injection hP with h; exact absurd h (hu _))
      | (injection hP with h; subst h; exact .inl ⟨_, _, rfl, rfl, by simp, by simp⟩)
      | exact .inr ⟨_, _, _, rfl⟩
      | cases hP

theorem Lift.fair (L : Lift c st act k xs) (X : IsLExec c st act) (F : LFair c st act) (G : LoggerReturns st act) : Proc.Fair c (PS c st k xs) (pact xs) := by
  intro t j
  apply Classical.byContradiction
  intro hn
  have hn1 : ∀ m, j ≤ m → pact xs m ≠ some (.step t) := fun m hm h => hn ⟨m, hm, .inl h⟩
  have hn2 : ∀ m, j ≤ m → Proc.step c (PS c st k xs m) (.step t) ≠ none := fun m hm h => hn ⟨m, hm, .inr h⟩
  have hk : ∀ n, j ≤ n → (st n).dead = false ∧ ∃ fr p, k n t = fr :: p ∧ (∀ fn, fr ≠ .user fn) ∧ (fr = .regLock → c.thread = true → (st n).lock = none) ∧
      (∀ e v, fr = .exitLock e v → c.programAtExit = true → c.thread = true → (st n).lock = none) := by
    intro n h
    have h1 := hn2 (2 * n) (by omega)
    rw [PS_even] at h1
    cases hd : (st n).dead with
    | true => exact absurd (Proc.dead_none (s := view c (st n) (k n)) hd _) h1
    | false =>
      refine ⟨rfl, ?_⟩
      cases hk : k n t with
      | nil => exact absurd (by simp [Proc.step, view, hd, Action.tid, hk]) h1
      | cons fr p =>
        refine ⟨fr, p, rfl, ?_, ?_, ?_⟩
        · rintro fn rfl
          exact absurd (by simp [Proc.step, view, hd, Action.tid, hk, Proc.userStep]) h1
        · rintro rfl hc
          cases hl : (st n).lock with
          | none => rfl
          | some u => exact absurd (by simp [Proc.step, view, hd, Action.tid, hk, Proc.frameStep, Proc.State.acquire, hc, hl]) h1
        · rintro e v rfl hp hc
          cases hl : (st n).lock with
          | none => rfl
          | some u => exact absurd (by simp [Proc.step, view, hd, Action.tid, hk, Proc.frameStep, Proc.State.acquire, hc, hl, hp]) h1
  have nostep : ∀ n, j ≤ n → act n ≠ some (.step t) := by
    intro n h ha
    obtain ⟨-, fr, p, h1, h2, -⟩ := hk n h
    have h3 := L.same_step h1 h2 ha
    exact hn1 (2 * n) (by omega) (by rw [pact_even, h3]; rfl)
  obtain ⟨m, hm, h | h⟩ := F t j
  · exact nostep m hm h
  · obtain ⟨hd, fr, p, h1, h2, h3, h4⟩ := hk m hm
    have T := (L.sim m).top hd t
    rw [h1] at T
    rcases T.origin h2 with ⟨f, r, h5, h6, h7, h8⟩ | ⟨e, v, r, h5⟩
    · obtain ⟨s', h9⟩ := frame_progress (c := c) hd h5 h6 (fun hc hl => ⟨fun hf => hl (h3 (h7 hf) hc), fun e v hf => by
        cases hp : c.programAtExit with
        | false => rfl
        | true => exact absurd (h4 e v (h8 e v hf) hp hc) hl⟩)
      rw [h] at h9; cases h9
    · obtain ⟨i, hi, h6 | ⟨⟨w, h6⟩, h7⟩⟩ := G m t _ _ h5
      · rw [(hk i (by omega)).1] at h6; cases h6
      · have h8 := lstep_user (X.next i _ h6).2 h7 rfl
        simp only [userStep, Action.tid, Option.some.injEq] at h8
        have h9 : (st (i + 1)).stk t = .exitGrp e v :: r := by rw [← h8]; simp [State.setStk]
        obtain ⟨m', hm', h10 | h10⟩ := L.goes_on X F h9 rfl (by simp) (by simp)
        · rw [(hk m' (by omega)).1] at h10; cases h10
        · exact nostep m' (by omega) h10.1

end Origin.LogProc
