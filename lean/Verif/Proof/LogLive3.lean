import Verif.Proof.LogLive2
/-! # Liveness with messages: what is assumed of user code -/

namespace Origin.LogProc

open Proc (Cfg Fn Tid FnId Exit Ev Action)

variable {c : Cfg} {s s' : State} {st : Nat → State} {act : Nat → Option Action} {k : Nat → Tid → List Proc.Frame} {xs : Nat → List Action}

/-- How far a stack is from the return of the user function. -/
def urank : List Frame → Nat
  | .user _ :: _ => 19
  | .logger _ :: r => urank r + 1
  | .createdMsg _ :: r => urank r + 2
  | .callCtor _ :: _ | .callT .. :: _ | .exitCall .. :: _ | .callFini .. :: _ => 20
  | .thrLoop :: _ => 3
  | .thrGone :: _ | .immGrp _ :: _ => 1
  | _ => 0

theorem ldead_stays (X : IsLExec c st act) {n : Nat} (h : (st n).dead = true) : (st (n + 1)).dead = true := by
  cases ha : act n with
  | none => rw [X.idle n ha]; exact h
  | some x => have := lstep_live (X.next n x ha).2; rw [h] at this; cases this

/-- While the function does not leave, the thread's stack without messages stays the same. -/
theorem Lift.kstays (L : Lift c st act k xs) {N : Nat} {t : Tid} {fn : Fn} {p : List Proc.Frame} (h0 : k N t = .user fn :: p)
    (hl : ∀ n, N ≤ n → ∀ x ∈ xs n, ¬ x.Leaves t) : ∀ n, N ≤ n → k n t = .user fn :: p := by
  have one : ∀ (a b : Proc.State) (x : Action), Proc.SInv c a → Proc.step c a x = some b → ¬ x.Leaves t → a.stk t = .user fn :: p → b.stk t = .user fn :: p := by
    intro a b x S h hx hs
    by_cases ht : x.tid = t
    · rcases Proc.user_cases S h ht hs with ⟨h1, -⟩ | ⟨-, -, ⟨h1, -⟩ | ⟨v, e, h1, -⟩ | ⟨v, e, h1, -⟩ | ⟨v, h1, -⟩⟩
      · exact h1
      · exact absurd (.inr (.inr (.inr h1))) hx
      · exact absurd (.inr (.inl ⟨v, h1⟩)) hx
      · exact absurd (.inr (.inr (.inl ⟨v, h1⟩))) hx
      · exact absurd (.inl ⟨v, h1⟩) hx
    · rw [(Proc.stk_other S h ht (by rw [hs]; simp)).1]; exact hs
  have many : ∀ (ys : List Action) (a b : Proc.State), Proc.Reach c a → Proc.run c a ys = some b → (∀ x ∈ ys, ¬ x.Leaves t) → a.stk t = .user fn :: p → b.stk t = .user fn :: p := by
    intro ys
    induction ys with
    | nil => intro a b _ h _ hs; simp only [Proc.run, Option.some.injEq] at h; rw [← h]; exact hs
    | cons y ys ih =>
      intro a b R h hx hs
      simp only [Proc.run, Option.bind_eq_some_iff] at h
      obtain ⟨d, h1, h2⟩ := h
      exact ih d b (.step R h1) h2 (fun x hm => hx x (by simp [hm])) (one a d y R.sinv h1 (hx y (by simp)) hs)
  intro n hn
  induction hn with
  | refl => exact h0
  | @step n hn ih => exact many (xs n) _ _ (L.sim n).reach (L.run n) (hl n hn) ih

/-- The functions origin calls come to their return without messages as well. -/
theorem Lift.leaves (L : Lift c st act k xs) (X : IsLExec c st act) (F : LFair c st act) (G : LoggerReturns st act) (H : LFinite Fn.handler st act) {N : Nat} {t : Tid} {fn : Fn}
    {p : List Proc.Frame} (h0 : k N t = .user fn :: p) (hfn : fn.handler) (hl : ∀ n, N ≤ n → ∀ x ∈ xs n, ¬ x.Leaves t) (hd : ∀ n, N ≤ n → (st n).dead = false) : False := by
  have hk := L.kstays h0 hl
  have hmain : fn ≠ .main := by rintro rfl; exact hfn
  have hstart : fn ≠ .start := by rintro rfl; exact hfn
  have top : ∀ n, N ≤ n → Top ((st n).stk t) (.user fn :: p) := fun n hn => hk n hn ▸ (L.sim n).top (hd n hn) t
  -- what happens when origin's own code goes on
  have go : ∀ n fr r, N ≤ n → (st n).stk t = fr :: r → fr.users = false → fr ≠ .regLock → (∀ e v, fr ≠ .exitLock e v) →
      ∃ m, N ≤ m ∧ act m = some (.step t) ∧ (st m).stk t = fr :: r ∧ frameStep c (st m) t r fr = some (st (m + 1)) := by
    intro n fr r hn h1 h2 h3 h4
    obtain ⟨m, hm, h5 | ⟨h5, h6, h7⟩⟩ := L.goes_on X F h1 h2 h3 h4
    · rw [hd m (by omega)] at h5; cases h5
    · exact ⟨m, by omega, h5, h6, h7⟩
  have noxs : ∀ m, N ≤ m → act m = some (.step t) → xs m = [] := by
    intro m hm ha
    have Fo := L.next m _ ha
    have h1 := hl m hm
    have h2 : xs m = [.step t] → False := fun h => by
      obtain ⟨s1, h3⟩ := L.view_step h
      have := Proc.step_user h3 (hk m hm)
      cases this
    generalize hxs : xs m = ys at *
    cases Fo with
    | stay => rfl
    | same => exact (h2 rfl).elim
    | ret v h => exact absurd (.inl ⟨v, rfl⟩) (h1 (.ret t v) (List.mem_cons_self ..))
    | retStep v h => exact absurd (.inl ⟨v, rfl⟩) (h1 (.ret t v) (List.mem_cons_self ..))
    | imm v h => exact absurd (.inr (.inr (.inl ⟨v, rfl⟩))) (h1 (.immExit t v) (List.mem_cons_self ..))
  have noview : ∀ m, xs m = [] → view c (st m) (k m) = view c (st (m + 1)) (k (m + 1)) := by
    intro m h
    have := L.run m
    rw [h] at this
    simpa only [Proc.run, Option.some.injEq] using this
  have main : ∀ b n, N ≤ n → urank ((st n).stk t) = b → False := by
    intro b
    induction b using Nat.strongRecOn with
    | ind b ih =>
    intro n hn hb
    have T := top n hn
    generalize hl' : (st n).stk t = l at T hb
    cases l with
    | nil => rcases T with ⟨h, -⟩ | ⟨-, h⟩ <;> cases h
    | cons fr r =>
    have low : ∀ m l', N ≤ m → (st m).stk t = l' → urank l' < b → False := fun m l' hm h1 h2 => ih _ h2 m hm (by rw [h1])
    cases fr with
    | user fn' =>
      obtain rfl : fn' = fn := by
        rcases T with ⟨h, -⟩ | ⟨-, h⟩
        · cases h
        · cases h; rfl
      obtain ⟨j, hj, h1 | ⟨x, h1, h2, h3⟩⟩ := H n t fn' r hl' hfn
      · rw [hd j (by omega)] at h1; cases h1
      · have hj' : N ≤ j := by omega
        have h4 := lstep_user (X.next j x h1).2 (by rw [h2.tid]; exact h3) rfl
        have T' := top (j + 1) (by omega)
        subst hb
        rcases h2 with ⟨v, rfl⟩ | ⟨v, rfl⟩ | ⟨v, rfl⟩ | rfl
        · have Fo := L.next j _ h1
          have h5 := hl j hj'
          generalize hxs : xs j = ys at *
          cases Fo with
          | stay _ hr =>
            rcases hr v rfl fn' r h3 with h6 | h6 | rfl
            · exact absurd h6 hmain
            · exact absurd h6 hstart
            · have h7 : userStep c (st j) t (.user fn') [.thrLoop] (.ret t v) = some ((st j).setStk t [.thrLoop]) := by
                cases fn' <;> first | rfl | exact absurd rfl hmain | exact absurd rfl hstart
              rw [show (Action.ret t v).tid = t from rfl, h7, Option.some.injEq] at h4
              exact low (j + 1) [.thrLoop] (by omega) (by rw [← h4]; simp [State.setStk]) (by simp [urank])
          | same => exact absurd (.inl ⟨v, rfl⟩) (h5 _ (by simp))
          | ret v h => cases h
          | retStep v h => cases h
          | imm v h => cases h
        · simp only [userStep, Option.some.injEq] at h4
          rw [← h4] at T'
          simp only [State.beginExit, State.ev, State.setStk, Action.tid, if_true] at T'
          rcases T' with ⟨h, -⟩ | ⟨-, h⟩ <;> cases h
        · simp only [userStep, Option.some.injEq] at h4
          exact low (j + 1) (.logger (.exiting none v) :: .immGrp v :: .user fn' :: r) (by omega) (by rw [← h4]; simp [State.trace, State.setStk, Action.tid]) (by simp [urank])
        · simp only [userStep] at h4
          split at h4
          · simp only [Option.some.injEq] at h4
            rw [← h4] at T'
            simp only [State.setStk, Action.tid, if_true] at T'
            rcases T' with ⟨h, -⟩ | ⟨-, h⟩ <;> cases h
          · cases h4
    | logger m =>
      obtain ⟨j, hj, h1 | ⟨⟨v, h1⟩, h3⟩⟩ := G n t m r hl'
      · rw [hd j (by omega)] at h1; cases h1
      · have h4 := lstep_user (X.next j _ h1).2 h3 rfl
        simp only [userStep, Option.some.injEq] at h4
        exact low (j + 1) r (by omega) (by rw [← h4]; simp [State.setStk, Action.tid]) (by rw [← hb]; simp [urank])
    | thrLoop =>
      obtain ⟨m, hm, h1, h2, h3⟩ := go n _ _ hn hl' rfl (by simp) (by simp)
      rcases T with ⟨h, -⟩ | ⟨-, h⟩
      · obtain rfl : r = [] := by simpa using h
        simp only [frameStep] at h3
        split at h3
        · next f fs h5 h6 =>
          have h7 := congrArg (fun s : Proc.State => s.tdtors t) (noview m (noxs m hm h1))
          simp only [Option.some.injEq] at h3
          rw [← h3] at h7
          simp only [view, State.trace, State.setStk, State.setTd, if_true] at h7
          rw [h6] at h7
          have := congrArg List.length h7
          simp at this
        · simp only [Option.some.injEq] at h3
          exact low (m + 1) [.logger .gone, .thrGone] (by omega) (by rw [← h3]; simp [State.trace, State.setStk]) (by rw [← hb]; simp [urank])
      · cases h
    | createdMsg u =>
      obtain ⟨m, hm, h1, h2, h3⟩ := go n _ _ hn hl' rfl (by simp) (by simp)
      simp only [frameStep, Option.some.injEq] at h3
      exact low (m + 1) (.logger (.created u) :: r) (by omega) (by rw [← h3]; simp [State.trace, State.setStk]) (by rw [← hb]; simp [urank])
    | callCtor q =>
      obtain ⟨m, hm, h1, h2, h3⟩ := go n _ _ hn hl' rfl (by simp) (by simp)
      simp only [frameStep, Option.some.injEq] at h3
      exact low (m + 1) (.user (.ctor q) :: r) (by omega) (by rw [← h3]; simp [State.ev, State.setStk]) (by rw [← hb]; simp [urank])
    | callT o f =>
      obtain ⟨m, hm, h1, h2, h3⟩ := go n _ _ hn hl' rfl (by simp) (by simp)
      simp only [frameStep, Option.some.injEq] at h3
      exact low (m + 1) (.user (.tdtor f) :: r) (by omega) (by rw [← h3]; simp [State.ev, State.setStk]) (by rw [← hb]; simp [urank])
    | exitCall e v f =>
      obtain ⟨m, hm, h1, h2, h3⟩ := go n _ _ hn hl' rfl (by simp) (by simp)
      simp only [frameStep, Option.some.injEq] at h3
      exact low (m + 1) (.user (.pdtor f) :: .exitLock e v :: r) (by omega) (by rw [← h3]; simp [State.ev, State.setStk]) (by rw [← hb]; simp [urank])
    | callFini e q =>
      obtain ⟨m, hm, h1, h2, h3⟩ := go n _ _ hn hl' rfl (by simp) (by simp)
      simp only [frameStep, Option.some.injEq] at h3
      exact low (m + 1) (.user (.fini q) :: r) (by omega) (by rw [← h3]; simp [State.ev, State.setStk]) (by rw [← hb]; simp [urank])
    | thrGone =>
      obtain ⟨m, hm, h1, h2, h3⟩ := go n _ _ hn hl' rfl (by simp) (by simp)
      simp only [frameStep, Option.some.injEq] at h3
      have T' := top (m + 1) (by omega)
      rw [← h3] at T'
      simp only [State.ev, State.setStk, if_true] at T'
      rcases T' with ⟨h, -⟩ | ⟨-, h⟩ <;> cases h
    | immGrp v =>
      obtain ⟨m, hm, h1, h2, h3⟩ := go n _ _ hn hl' rfl (by simp) (by simp)
      simp only [frameStep, Option.some.injEq] at h3
      have := hd (m + 1) (by omega)
      rw [← h3] at this
      cases this
    | callMain => rcases T with ⟨h, -⟩ | ⟨-, h⟩ <;> cases h; exact absurd rfl hmain
    | mainDone => rcases T with ⟨h, -⟩ | ⟨-, h⟩ <;> cases h; exact absurd rfl hmain
    | launch => rcases T with ⟨h, -⟩ | ⟨-, h⟩ <;> cases h; exact absurd rfl hstart
    | callStart => rcases T with ⟨h, -⟩ | ⟨-, h⟩ <;> cases h; exact absurd rfl hstart
    | startDone => rcases T with ⟨h, -⟩ | ⟨-, h⟩ <;> cases h; exact absurd rfl hstart
    | _ => rcases T with ⟨h, -⟩ | ⟨-, h⟩ <;> cases h
  exact main _ N (Nat.le_refl _) rfl

theorem Lift.finite (L : Lift c st act k xs) (X : IsLExec c st act) (F : LFair c st act) (G : LoggerReturns st act) (H : LFinite Fn.handler st act) :
    Proc.Finite Fn.handler (PS c st k xs) (pact xs) := by
  intro j t fn hr hfn
  apply Classical.byContradiction
  intro hn
  have hdead : ∀ n, j ≤ 2 * n → (st n).dead = false := by
    intro n h
    cases hd : (st n).dead with
    | false => rfl
    | true => exact absurd ⟨2 * n, h, .inl (by rw [PS_even]; exact hd)⟩ hn
  have hact : ∀ m x, j ≤ m → pact xs m = some x → ¬ x.Leaves t := fun m x h h1 h2 => hn ⟨m, h, .inr ⟨x, h1, h2⟩⟩
  have hxs : ∀ n, j ≤ 2 * n → ∀ x ∈ xs n, ¬ x.Leaves t := by
    intro n h x hx
    rcases L.len n with h1 | ⟨y, h1⟩ | ⟨y, z, h1⟩ <;> rw [h1] at hx
    · cases hx
    · simp only [List.mem_singleton] at hx; subst hx
      exact hact (2 * n) x h (by rw [pact_even, h1]; rfl)
    · simp only [List.mem_cons, List.not_mem_nil, or_false] at hx
      rcases hx with rfl | rfl
      · exact hact (2 * n) x h (by rw [pact_even, h1]; rfl)
      · exact hact (2 * n + 1) x (by omega) (by rw [pact_odd, h1]; rfl)
  obtain ⟨p, hr⟩ := hr
  obtain ⟨n, rfl | rfl⟩ := par j
  · rw [PS_even] at hr
    exact L.leaves X F G H (N := n) (p := p) hr hfn (fun m hm => hxs m (by omega)) (fun m hm => hdead m (by omega))
  · refine L.leaves X F G H (N := n + 1) (p := p) ?_ hfn (fun m hm => hxs m (by omega)) (fun m hm => hdead m (by omega))
    have E := L.exec
    have h2 : 2 * n + 1 + 1 = 2 * (n + 1) := by omega
    have h1 : (PS c st k xs (2 * n + 1 + 1)).stk t = .user fn :: p := by
      cases ha : pact xs (2 * n + 1) with
      | none => rw [E.idle _ ha]; exact hr
      | some x =>
        have hs := E.next _ x ha
        have hx := hact _ x (Nat.le_refl _) ha
        by_cases ht : x.tid = t
        · rcases Proc.user_cases (E.reach _).sinv hs ht hr with ⟨h1, -⟩ | ⟨-, -, ⟨h1, -⟩ | ⟨v, e, h1, -⟩ | ⟨v, e, h1, -⟩ | ⟨v, h1, -⟩⟩
          · exact h1
          · exact absurd (.inr (.inr (.inr h1))) hx
          · exact absurd (.inr (.inl ⟨v, h1⟩)) hx
          · exact absurd (.inr (.inr (.inl ⟨v, h1⟩))) hx
          · exact absurd (.inl ⟨v, h1⟩) hx
        · rw [(Proc.stk_other (E.reach _).sinv hs ht (by rw [hr]; simp)).1]; exact hr
    rw [h2, PS_even] at h1
    exact h1

theorem Abs.fini {l P p q} (h : Abs l P) : P = .user (.fini q) :: p → .user (.fini q) ∈ l ∨ ∃ e, .callFini e q ∈ l := by
  intro hP
  induction h generalizing p with
  | user fn => injection hP with h; injection h with h; subst h; exact .inl (by simp)
  | callFini e q' => injection hP with h; injection h with h; injection h with h; subst h; exact .inr ⟨e, by simp⟩
  | logger m _ ih => rcases ih hP with h | ⟨e, h⟩; exact .inl (by simp [h]); exact .inr ⟨e, by simp [h]⟩
  | createdMsg u _ ih => rcases ih hP with h | ⟨e, h⟩; exact .inl (by simp [h]); exact .inr ⟨e, by simp [h]⟩
  | immGrp v _ ih => rcases ih hP with h | ⟨e, h⟩; exact .inl (by simp [h]); exact .inr ⟨e, by simp [h]⟩
  | _ => cases hP

theorem Lift.quiet (L : Lift c st act k xs) (X : IsLExec c st act) (Q : LQuietFini st act) : Proc.QuietFini (PS c st k xs) (pact xs) := by
  intro j t q ⟨p, hr⟩
  suffices h : ∀ x, pact xs j = some x → x.tid = t → x ≠ .regProg t ∧ ∀ v, x ≠ .exit t v from
    ⟨fun v hv => (h _ hv rfl).2 v rfl, fun hv => (h _ hv rfl).1 rfl⟩
  intro x hx ht
  obtain ⟨n, rfl | rfl⟩ := par j
  · rw [PS_even] at hr
    rw [pact_even] at hx
    cases ha : act n with
    | none => rw [L.idle n ha] at hx; cases hx
    | some y =>
      have hd := lstep_live (X.next n y ha).2
      have Fo := L.next n y ha
      generalize hxs : xs n = ys at *
      cases Fo with
      | stay => cases hx
      | same =>
        simp only [List.getElem?_cons_zero, Option.some.injEq] at hx
        subst hx
        have T := (L.sim n).top hd t
        have hr : k n t = .user (.fini q) :: p := hr
        rw [hr] at T
        rcases T with ⟨-, h | ⟨f, h⟩⟩ | ⟨-, h⟩
        · simp at h
        · simp at h
        · obtain ⟨h1, h2⟩ := Q n t q (h.fini rfl)
          rw [ha] at h1 h2
          exact ⟨fun h => h2 (by rw [h]), fun v h => h1 v (by rw [h])⟩
      | ret v _ => simp only [List.getElem?_cons_zero, Option.some.injEq] at hx; subst hx; simp
      | retStep v _ => simp only [List.getElem?_cons_zero, Option.some.injEq] at hx; subst hx; simp
      | imm v _ => simp only [List.getElem?_cons_zero, Option.some.injEq] at hx; subst hx; simp
  · rw [pact_odd] at hx
    cases ha : act n with
    | none => rw [L.idle n ha] at hx; cases hx
    | some y =>
      have Fo := L.next n y ha
      generalize hxs : xs n = ys at *
      cases Fo with
      | stay => cases hx
      | same => cases hx
      | ret v _ => cases hx
      | retStep v h => simp at hx; subst hx; rw [h]; simp
      | imm v h => simp at hx; subst hx; rw [h]; simp

theorem regd_plain {l : List LEv} {f : FnId} : Proc.Regd (plain c l) f ↔ Proc.Regd (real l) f := by
  unfold Proc.Regd
  rw [pregd_plain]
  refine or_congr Iff.rfl (exists_congr fun t => ?_)
  rw [mem_plain (by rfl), mem_real]

theorem Regd.mono {l l' : List Ev} (h : ∀ x ∈ l, x ∈ l') {f : FnId} : Proc.Regd l f → Proc.Regd l' f := by
  rintro (⟨t, h1⟩ | ⟨t, h1⟩)
  · exact .inl ⟨t, h _ h1⟩
  · exact .inr ⟨t, h _ h1⟩

theorem Lift.finitelyMany (L : Lift c st act k xs) (M : LFinitelyMany st) : Proc.FinitelyMany (PS c st k xs) := by
  obtain ⟨b, hb⟩ := M
  refine ⟨b, fun j f h => ?_⟩
  obtain ⟨n, rfl | rfl⟩ := par j
  · rw [PS_even] at h
    exact hb n f (regd_plain.mp h)
  · have E := L.exec
    have h2 : 2 * n + 1 + 1 = 2 * (n + 1) := by omega
    have h1 : Proc.Regd (PS c st k xs (2 * (n + 1))).log f := by
      rw [← h2]
      cases ha : pact xs (2 * n + 1) with
      | none => rw [E.idle _ ha]; exact h
      | some x => exact Regd.mono (fun e he => Proc.log_mono (E.next _ x ha) he) h
    rw [PS_even] at h1
    exact hb (n + 1) f (regd_plain.mp h1)

end Origin.LogProc
