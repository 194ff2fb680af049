import Verif.Proof.FairProc
/-!
# Exits, thread exits and startup get to their ends
-/

namespace Origin.Proc

set_option linter.unusedSimpArgs false

variable {c : Cfg} {s s' : State} {st : Nat → State} {act : Nat → Option Action}

/-- What user code can do. -/
theorem user_cases (S : SInv c s) {x : Action} {t : Tid} {fn : Fn} {rest : List Frame} (h : step c s x = some s') (hx : x.tid = t)
    (hs : s.stk t = .user fn :: rest) :
    (s'.stk t = .user fn :: rest ∧ ¬ x.Leaves t ∧ s'.dtors = s.dtors ∧ (s'.tdtors t = s.tdtors t ∨ s'.nextF ≠ s.nextF)) ∨
    (s'.dtors = s.dtors ∧ s'.tdtors t = s.tdtors t ∧
      ((x = .regProg t ∧ s'.stk t = .regLock :: .user fn :: rest) ∨
       (∃ v e, x = .exit t v ∧ s'.stk t = .exitThr e v :: .user fn :: rest) ∨
       (∃ v e, x = .immExit t v ∧ s'.stk t = .exitImm e v :: .user fn :: rest) ∨
       (∃ v, x = .ret t v ∧ (fn ≠ .main → fn ≠ .start → s'.stk t = rest)))) := by
  subst hx
  have hnt : x.tid ≠ s.nextT := fun e => by rw [S.new _ (Nat.le_of_eq e.symm)] at hs; cases hs
  have h := step_user h hs
  cases x <;> simp only [userStep, Action.tid] at h hs hnt ⊢
  · split at h
    · injection h with h; subst h
      exact .inl ⟨by simp [State.setStk, State.ev, hnt, hs], by simp [Action.Leaves], rfl, .inl rfl⟩
    · cases h
  · split at h
    · injection h with h; subst h
      exact .inl ⟨hs, by simp [Action.Leaves], rfl, .inr (by simp [State.setTd, State.ev])⟩
    · cases h
  · split at h
    · injection h with h; subst h
      exact .inr ⟨rfl, rfl, .inl ⟨trivial, by simp [State.setStk]⟩⟩
    · cases h
  · injection h with h; subst h
    exact .inr ⟨rfl, rfl, .inr (.inl ⟨_, _, rfl, by simp only [State.beginExit, State.ev, State.setStk, if_self]; rfl⟩)⟩
  · injection h with h; subst h
    exact .inr ⟨rfl, rfl, .inr (.inr (.inl ⟨_, _, rfl, by simp only [State.ev, State.setStk, if_self]; rfl⟩))⟩
  · split at h <;> injection h with h <;> subst h
    · exact .inr ⟨rfl, rfl, .inr (.inr (.inr ⟨_, rfl, by simp⟩))⟩
    · exact .inr ⟨rfl, rfl, .inr (.inr (.inr ⟨_, rfl, by simp⟩))⟩
    · exact .inr ⟨rfl, rfl, .inr (.inr (.inr ⟨_, rfl, by simp [State.setStk]⟩))⟩
  · cases h

/-! ### the last part of `exit` -/

theorem fini_first {n m : Nat} (hok : c.Ok n m) : ∃ i, c.finiFirst = c.finiStart + i * c.ws := by
  unfold Cfg.finiFirst
  split
  · next h => exact ⟨m, hok.fini h⟩
  · exact ⟨0, by simp⟩

theorem fini_step (S : SInv c s) {x : Action} {w : Nat} (hl : FiniStk c (s.stk x.tid) w) (h : step c s x = some s')
    (hq : ∀ p, Running s x.tid (.fini p) → (∀ v, x ≠ .exit x.tid v) ∧ x ≠ .regProg x.tid) :
    s'.stk x.tid = s.stk x.tid ∨ (∃ w', w' < w ∧ FiniStk c (s'.stk x.tid) w') := by
  generalize hs : s.stk x.tid = l at hl
  cases hl with
  | loop i e v rest =>
    obtain ⟨-, h⟩ := step_own h hs (by simp)
    simp only [frameStep] at h
    split at h
    · injection h with h; subst h
      exact .inr ⟨1, by omega, by simp only [State.setStk, if_self]; exact .imm _ _ _⟩
    · next hne =>
      injection h with h; subst h
      cases i with
      | zero => simp at hne
      | succ i =>
        refine .inr ⟨2 * i + 3, by omega, ?_⟩
        have : c.finiStart + (i + 1) * c.ws - c.ws = c.finiStart + i * c.ws := by
          rw [Nat.add_mul, Nat.one_mul, ← Nat.add_assoc, Nat.add_sub_cancel]
        simp only [State.setStk, State.ev, if_self, this]
        exact .fn _ _ _ _ _
  | fn q i e v rest =>
    have hq := hq q ⟨_, hs⟩
    rcases user_cases S h rfl hs with ⟨h1, -⟩ | ⟨-, -, ⟨h1, -⟩ | ⟨v, e, h1, -⟩ | ⟨v, e, -, h1⟩ | ⟨v, -, h1⟩⟩
    · exact .inl h1
    · exact absurd h1 hq.2
    · exact absurd h1 (hq.1 _)
    · rw [h1]; exact .inr ⟨1, by omega, .imm _ _ _⟩
    · rw [h1 (by simp) (by simp)]; exact .inr ⟨2 * i + 2, by omega, .loop _ _ _ _⟩
  | imm e v rest =>
    obtain ⟨-, h⟩ := step_own h hs (by simp)
    simp only [frameStep] at h
    injection h with h; subst h
    exact .inl hs

/-- Once the program's functions are finished, the thread that finished them is in the last part of `exit`: one step. -/
theorem fini_done_step {n m : Nat} (hok : c.Ok n m) (S : SInv c s) {x : Action} (hs : step c s x = some s')
    (Q : ∀ p, Running s x.tid (.fini p) → (∀ v, x ≠ .exit x.tid v) ∧ x ≠ .regProg x.tid)
    (D : ∀ t e, Ev.pDone t e ∈ s.log → ∃ w, FiniStk c (s.stk t) w) : ∀ t e, Ev.pDone t e ∈ s'.log → ∃ w, FiniStk c (s'.stk t) w := by
  intro t e h
  by_cases hold : Ev.pDone t e ∈ s.log
  · obtain ⟨w, hw⟩ := D t e hold
    by_cases hx : x.tid = t
    · subst hx
      rcases fini_step S hw hs Q with h1 | ⟨w', -, h1⟩
      · exact ⟨w, by rw [h1]; exact hw⟩
      · exact ⟨w', h1⟩
    · rw [(stk_other S hs hx (by intro h0; rw [h0] at hw; cases hw)).1]
      exact ⟨w, hw⟩
  · -- it has just happened
    obtain ⟨i, hi⟩ := fini_first hok
    have key : ∀ {t' e' v rest} {s1 : State}, s1.log = .pDone t' e' :: s.log →
        s1.stk t' = .exitFini e' v c.finiFirst :: rest → Ev.pDone t e ∈ s1.log → ∃ w, FiniStk c (s1.stk t) w := by
      intro t' e' v rest s1 h1 h2 h3
      rw [h1] at h3
      rcases List.mem_cons.mp h3 with h3 | h3
      · injection h3 with h3 h4
        subst h3
        rw [h2, hi]
        exact ⟨_, .loop _ _ _ _⟩
      · exact absurd h3 hold
    have T := (step_tr hs).2
    cases T with
    | exitNoLock t' rest e' v hs' hp => exact key rfl (by simp only [State.ev, State.setStk, if_self]; rfl) h
    | exitPopEnd t' rest e' v hs' hd => exact key rfl (by simp only [State.ev, State.setStk, if_self]; rfl) h
    | regLock t' rest s1 hs' hal => simp [State.setStk, acquire_fields hal] at h; exact absurd h hold
    | exitLock t' rest e' v s1 hs' hp hal => simp [State.setStk, acquire_fields hal] at h; exact absurd h hold
    | _ => simp [State.ev, State.setStk, State.setTd, State.beginExit] at h; exact absurd h hold

/-- Once the program's functions are finished, the thread that finished them is in the last part of `exit`. -/
theorem fini_stack {n m : Nat} (hok : c.Ok n m) (X : Run c st act) (Q : QuietFini st act) (hc : c.thread = true) (hp : c.programAtExit = true) :
    ∀ k t e, Ev.pDone t e ∈ (st k).log → ∃ w, FiniStk c ((st k).stk t) w := by
  intro k
  induction k with
  | zero => intro t e h; exact X.done0 hc hp t e h
  | succ k ih =>
    intro t e h
    cases ha : act k with
    | none => rw [X.idle k ha] at h ⊢; exact ih t e h
    | some x =>
      exact fini_done_step hok (X.inv k).1 (X.next k x ha) (fun p hp => by
        obtain ⟨q1, q2⟩ := Q k _ p hp
        exact ⟨fun v hv => q1 v (by rw [ha, ← hv]), fun hv => q2 (by rw [ha, ← hv])⟩) ih t e h

/-- A function that does not run for ever does something. -/
theorem user_leaves (X : Run c st act) {p : Fn → Prop} (H : Finite p st act) {n : Nat} {t : Tid} {fn : Fn} {rest : List Frame}
    (hs : (st n).stk t = .user fn :: rest) (hp : p fn) :
    ∃ m, n ≤ m ∧ ((st m).dead = true ∨ ∃ x, act m = some x ∧ x.Leaves t ∧ (st m).stk t = .user fn :: rest) := by
  obtain ⟨k, hk, h⟩ := H n t fn ⟨rest, hs⟩ hp
  rcases hold_until (P := fun m => (st m).stk t = .user fn :: rest) (Q := fun m => ∃ x, act m = some x ∧ x.Leaves t) hk hs
    (fun m _ hm => by
      cases ha : act m with
      | none => rw [X.idle m ha]; exact .inr hm
      | some x =>
        by_cases hx : x.tid = t
        · rcases user_cases (X.inv m).1 (X.next m x ha) hx hm with ⟨h1, -⟩ | ⟨-, -, ⟨h1, -⟩ | ⟨v, e, h1, -⟩ | ⟨v, e, h1, -⟩ | ⟨v, h1, -⟩⟩
          · exact .inr h1
          · exact .inl ⟨x, rfl, .inr (.inr (.inr h1))⟩
          · exact .inl ⟨x, rfl, .inr (.inl ⟨v, h1⟩)⟩
          · exact .inl ⟨x, rfl, .inr (.inr (.inl ⟨v, h1⟩))⟩
          · exact .inl ⟨x, rfl, .inl ⟨v, h1⟩⟩
        · exact .inr (by rw [(stk_other (X.inv m).1 (X.next m x ha) hx (by rw [hm]; simp)).1]; exact hm)) with ⟨m, h1, h2, x, h3, h4⟩ | h1
  · exact ⟨m, h1, .inr ⟨x, h3, h4, h2⟩⟩
  · rcases h with h | ⟨x, h2, h3⟩
    · exact ⟨k, hk, .inl h⟩
    · exact ⟨k, hk, .inr ⟨x, h2, h3, h1⟩⟩

theorem Action.Leaves.tid {t : Tid} {x : Action} (h : x.Leaves t) : x.tid = t := by
  rcases h with ⟨v, rfl⟩ | ⟨v, rfl⟩ | ⟨v, rfl⟩ | rfl <;> rfl

theorem fini_gone (X : Run0 c st act) (F : Fair c st act) {n : Nat} {t : Tid} {e : Exit} {v : Int} {rest : List Frame}
    (hs : (st n).stk t = .exitImm e v :: rest) : ∃ m, n ≤ m ∧ (st m).dead = true := by
  obtain ⟨m, hm, h | ⟨h1, h2⟩⟩ := goes_on X F hs (by simp) (by simp [Frame.waits])
  · exact ⟨m, hm, h⟩
  · obtain ⟨-, h⟩ := step_own (X.next m _ h1) h2 (by simp)
    simp only [frameStep] at h
    injection h with h
    exact ⟨m + 1, by omega, by rw [← h]; rfl⟩

/-- The last part of `exit` ends the process. -/
theorem fini_ends (X : Run c st act) (F : Fair c st act) (H : Finite Fn.handler st act) (Q : QuietFini st act) {n w : Nat} {t : Tid}
    (h : FiniStk c ((st n).stk t) w) : ∃ m, n ≤ m ∧ (st m).dead = true := by
  refine descend (M := fun m b => FiniStk c ((st m).stk t) b) w n h fun m b hm hM => ?_
  have stp : ∀ k x, act k = some x → x.tid = t → FiniStk c ((st k).stk t) b → (st (k + 1)).stk t = (st k).stk t ∨
      ∃ b', b' < b ∧ FiniStk c ((st (k + 1)).stk t) b' := by
    intro k x ha hx hb
    subst hx
    exact fini_step (X.inv k).1 hb (X.next k x ha) (fun p hp => by
      obtain ⟨q1, q2⟩ := Q k _ p hp
      exact ⟨fun v hv => q1 v (by rw [ha, ← hv]), fun hv => q2 (by rw [ha, ← hv])⟩)
  have hM' := hM
  generalize hl : (st m).stk t = l at hM
  cases hM with
  | loop i e v rest =>
    obtain ⟨k, hk, h | ⟨h1, h2⟩⟩ := goes_on X.toRun0 F hl (by simp) (by simp [Frame.waits])
    · exact ⟨k, hk, .inl h⟩
    · rcases stp k _ h1 rfl (by rw [h2, ← hl]; exact hM') with h3 | h3
      · obtain ⟨-, h4⟩ := step_own (X.next k _ h1) h2 (by simp)
        simp only [frameStep] at h4
        rw [h2] at h3
        split at h4 <;> (injection h4 with h4; rw [← h4] at h3; simp [State.setStk, State.ev, Action.tid] at h3)
      · exact ⟨k + 1, by omega, .inr h3⟩
  | fn q i e v rest =>
    obtain ⟨k, hk, h | ⟨x, h1, h2, h3⟩⟩ := user_leaves X H hl trivial
    · exact ⟨k, hk, .inl h⟩
    · rcases stp k _ h1 h2.tid (by rw [h3, ← hl]; exact hM') with h4 | h4
      · rcases user_cases (X.inv k).1 (X.next k x h1) h2.tid h3 with ⟨-, h5, -⟩ | ⟨-, -, ⟨-, h5⟩ | ⟨v, e, -, h5⟩ | ⟨v, e, -, h5⟩ | ⟨v, -, h5⟩⟩
        · exact absurd h2 h5
        · rw [h4, h3] at h5; simp at h5
        · rw [h4, h3] at h5; simp at h5
        · rw [h4, h3] at h5; simp at h5
        · have h5 := h5 (by simp) (by simp)
          rw [h4, h3] at h5; simp at h5
      · exact ⟨k + 1, by omega, .inr h4⟩
  | imm e v rest =>
    obtain ⟨k, hk, h⟩ := fini_gone X.toRun0 F hl
    exact ⟨k, hk, .inl h⟩

end Origin.Proc
