import Verif.Props.FairUser
set_option linter.unusedSimpArgs false
/-! # C71, C72: the hypotheses are met; and C71 is false of every program and history -/

namespace Origin.User
open Programs

variable {σ C : Type} {pr : Prg σ C} {c : Proc.Cfg} {sig : Bool} {m : σ} {a tid : Nat}

/-! ### Concrete infinite executions: a list of actions, then rest -/

/-- The state after the first `n` of the actions. -/
def stAt (pr : Prg σ C) (c : Proc.Cfg) (sig : Bool) (m : σ) (a tid : Nat) (xs : List Action) (n : Nat) : State σ C :=
  (run pr c sig (init m a tid) (xs.take n)).getD (init m a tid)

theorem run_append {e e' : State σ C} {xs : List Action} (h : run pr c sig e xs = some e') (ys : List Action) : run pr c sig e (xs ++ ys) = run pr c sig e' ys := by
  induction xs generalizing e with
  | nil => cases h; rfl
  | cons x xs ih =>
    simp only [run, Option.bind_eq_some_iff] at h
    obtain ⟨e1, h1, h2⟩ := h
    simp only [List.cons_append, run, h1, Option.bind_some]
    exact ih h2

theorem run_take {xs : List Action} (h : (run pr c sig (init m a tid) xs).isSome = true) (n : Nat) :
    run pr c sig (init m a tid) (xs.take n) = some (stAt pr c sig m a tid xs n) := by
  have : ∀ (s : State σ C) (ys zs : List Action), (run pr c sig s (ys ++ zs)).isSome = true → (run pr c sig s ys).isSome = true := by
    intro s ys zs
    induction ys generalizing s with
    | nil => intro _; rfl
    | cons y ys ih =>
      intro h
      simp only [List.cons_append, run] at h ⊢
      cases hs : step pr c sig s y with
      | none => rw [hs] at h; cases h
      | some s1 => rw [hs] at h; exact ih s1 h
  have := this (init m a tid) (xs.take n) (xs.drop n) (by rw [List.take_append_drop]; exact h)
  obtain ⟨s, hs⟩ := Option.isSome_iff_exists.mp this
  simp [stAt, hs]

theorem stAt_last {xs : List Action} {n : Nat} (hn : xs.length ≤ n) :
    stAt pr c sig m a tid xs n = (run pr c sig (init m a tid) xs).getD (init m a tid) := by
  simp only [stAt]; rw [List.take_of_length_le hn]

theorem exec_of {P : Life.State → Life.Action → Prop} {xs : List Action} (ht : tid ≠ 0) (h : (run pr c sig (init m a tid) xs).isSome = true)
    (hP : ∀ n x, xs[n]? = some x → ∀ y z, x.whole pr (stAt pr c sig m a tid xs n) = some y → y.life? = some z → P (stAt pr c sig m a tid xs n).w.l z) :
    IsExec pr c sig m P (stAt pr c sig m a tid xs) (xs[·]?) := by
  refine ⟨⟨a, tid, ht, rfl⟩, fun n hn => ?_, fun n x hx => ⟨hP n x hx, ?_⟩⟩
  · have hle : xs.length ≤ n := by simpa using hn
    rw [stAt_last hle, stAt_last (by omega)]
  · have h1 := run_take h n
    have h2 := run_take h (n + 1)
    rw [List.take_add_one, hx, Option.toList_some, run_append h1] at h2
    simp only [run] at h2
    cases hs : step pr c sig (stAt pr c sig m a tid xs n) x with
    | none => rw [hs] at h2; cases h2
    | some s1 => rw [hs] at h2; exact h2

theorem dead_none {e : State σ C} (h : e.w.p.dead = true) (x : Action) : step pr c sig e x = none := by
  have hw : ∀ y, Whole.step c sig e.w y = none := fun y => by simp [Whole.step, h]
  cases x with
  | sys x => simp [step, hw]
  | user t a tid =>
    simp only [step]
    split
    · rfl
    · next cd cs _ =>
      cases hop : pr.op cd <;> simp [h, hw]

/-- The process is gone in the end, so the schedule is fair. -/
theorem fair_of {xs : List Action} (h : ((run pr c sig (init m a tid) xs).getD (init m a tid)).w.p.dead = true) :
    Fair pr c sig (stAt pr c sig m a tid xs) (xs[·]?) := by
  have key : ∀ n, ∃ k, n ≤ k ∧ ∀ x, step pr c sig (stAt pr c sig m a tid xs k) x = none := fun n =>
    ⟨max n xs.length, Nat.le_max_left _ _, fun x => by rw [stAt_last (Nat.le_max_right _ _)]; exact dead_none h x⟩
  refine ⟨fun t n => ?_, fun t n => ?_, fun t n => ?_, fun t n => ?_⟩ <;> obtain ⟨k, h1, h2⟩ := key n
  · exact ⟨k, h1, .inr fun _ _ => h2 _⟩
  · exact ⟨k, h1, .inr (h2 _)⟩
  · exact ⟨k, h1, .inr fun _ => h2 _⟩
  · exact ⟨k, h1, .inr (.inr ⟨h2 _, h2 _⟩)⟩

theorem regd_bound (l : List Proc.Ev) : ∃ b, ∀ f, Proc.Regd l f → f < b := by
  induction l with
  | nil => exact ⟨0, fun f h => by rcases h with ⟨t, h⟩ | ⟨t, h⟩ <;> simp at h⟩
  | cons e l ih =>
    obtain ⟨b, hb⟩ := ih
    have : ∃ b', ∀ t f, (e = .pReg t f ∨ e = .tReg t f) → f < b' := by
      cases e with
      | tReg t0 f0 => exact ⟨Nat.succ f0, fun t f' h => by simp at h; rw [← h.2]; exact Nat.lt_succ_self _⟩
      | pReg t0 f0 => exact ⟨Nat.succ f0, fun t f' h => by simp at h; rw [← h.2]; exact Nat.lt_succ_self _⟩
      | _ => exact ⟨0, by simp⟩
    obtain ⟨b', hb'⟩ := this
    refine ⟨Nat.max b b', fun f h => ?_⟩
    rcases h with ⟨t, h⟩ | ⟨t, h⟩ <;> rcases List.mem_cons.mp h with h | h
    · exact Nat.lt_of_lt_of_le (hb' t f (.inl h.symm)) (Nat.le_max_right _ _)
    · exact Nat.lt_of_lt_of_le (hb f (.inl ⟨t, h⟩)) (Nat.le_max_left _ _)
    · exact Nat.lt_of_lt_of_le (hb' t f (.inr h.symm)) (Nat.le_max_right _ _)
    · exact Nat.lt_of_lt_of_le (hb f (.inr ⟨t, h⟩)) (Nat.le_max_left _ _)

theorem many_of (xs : List Action) : Proc.FinitelyMany (fun n => (stAt pr c sig m a tid xs n).w.p) := by
  have key : ∀ k, ∃ b, ∀ n, n ≤ k → ∀ f, Proc.Regd (stAt pr c sig m a tid xs n).w.p.log f → f < b := by
    intro k
    induction k with
    | zero =>
      obtain ⟨b, hb⟩ := regd_bound (stAt pr c sig m a tid xs 0).w.p.log
      exact ⟨b, fun n hn => by rw [show n = 0 by omega]; exact hb⟩
    | succ k ih =>
      obtain ⟨b, hb⟩ := ih
      obtain ⟨b', hb'⟩ := regd_bound (stAt pr c sig m a tid xs (k + 1)).w.p.log
      refine ⟨Nat.max b b', fun n hn f hf => ?_⟩
      by_cases h : n = k + 1
      · subst h; exact Nat.lt_of_lt_of_le (hb' f hf) (Nat.le_max_right _ _)
      · exact Nat.lt_of_lt_of_le (hb n (by omega) f hf) (Nat.le_max_left _ _)
  obtain ⟨b, hb⟩ := key xs.length
  refine ⟨b, fun n f hf => ?_⟩
  by_cases h : n ≤ xs.length
  · exact hb n h f hf
  · simp only at hf
    rw [stAt_last (by omega)] at hf
    exact hb xs.length (Nat.le_refl _) f (by rw [stAt_last (Nat.le_refl _)]; exact hf)

/-- A list of actions that ends the process is a fair schedule. -/
theorem schedule (ht : tid ≠ 0) {xs : List Action} {v : Int} {P : Life.State → Life.Action → Prop} (hP : ∀ s x, P s x) (h : (run pr c sig (init m a tid) xs).map (fun e => e.w.p.dead && endedB e v) = some true) :
    ∃ st act, IsExec pr c sig m P st act ∧ Fair pr c sig st act ∧ Proc.FinitelyMany (fun n => (st n).w.p) ∧ ∃ n, Ended (st n) v := by
  rw [Option.map_eq_some_iff] at h
  obtain ⟨e, h1, h2⟩ := h
  rw [Bool.and_eq_true] at h2
  refine ⟨_, _, exec_of ht (by rw [h1]; rfl) (fun _ _ _ _ _ _ _ => hP _ _), fair_of (by rw [h1]; exact h2.1), many_of xs, xs.length, ?_⟩
  rw [stAt_last (Nat.le_refl _), h1]
  exact ended_of h2.2

/-- **C71 is false** without a restriction on histories: on a fair schedule `twice` (which keeps to the contract) ends with status 1, having found the flag
of a joined thread not set; the abstract machine cannot do that, fairly or not. -/
theorem C71_false : ∃ st act, IsExec twice plain true false (fun _ _ => True) st act ∧ Fair twice plain true st act ∧ Proper twice plain false ∧
    Proc.FinitelyMany (fun n => (st n).w.p) ∧ ¬ Follows twice plain false st := by
  obtain ⟨st, act, X, F, M, n, hn⟩ := schedule (pr := twice) (c := plain) (sig := true) (m := false) (v := 1) (a := 100) (tid := 1) (by decide) (fun _ _ => trivial)
    (xs := twiceRun) (by decide)
  have hi : NoId twice := by intro cd u k; cases cd <;> simp [twice]
  have hx : exploreU twice (plain.thread && plain.programAtExit) (feats plain) (fun a => decide (a.status ≠ some 1)) 40 [] (ainit twice false 0) = true := by decide
  refine ⟨st, act, X, F, exploreU_proper hi hx, M, ?_⟩
  rintro ⟨-, ab, who, R, -, -, h⟩
  obtain ⟨l, A⟩ := R.reachU n
  obtain ⟨k, hk⟩ := exploreU_sound hi hx A
  have := exploreU_P hk
  rw [decide_eq_true_eq] at this
  exact this (((h n).2 1).mpr hn)

end Origin.User

namespace Origin.Programs
open User

/-! Fair schedules of the programs of C72. -/

example : ∃ st act, IsExec originStart plain false [] (fun _ _ => True) st act ∧ Fair originStart plain false st act ∧ Proc.FinitelyMany (fun n => (st n).w.p) ∧
    ∃ n, Ended (st n) 0 :=
  schedule (a := 100) (tid := 1) (by decide) (fun _ _ => trivial) (xs := [ps 0, ps 0, us 0, us 0, ps 0, ps 0, ps 0, us 0, us 0 200 2, us 0, st 0, st 0, st 1, us 1, us 1, us 1, ps 1, us 1, us 1, rl 1, st 1, st 1, st 1, st 1,
   wk 1 0, st 0, st 0, st 0, st 0, us 0, us 0, ps 0, us 0, us 0, ps 0, ps 0, ps 0, ps 0, ps 0, us 0, us 0, ps 0, ps 0, ps 0, ps 0]) (by decide)

example : ∃ st act, IsExec idPrg plain false none (fun _ _ => True) st act ∧ Fair idPrg plain false st act ∧ Proc.FinitelyMany (fun n => (st n).w.p) ∧
    ∃ n, Ended (st n) 201 :=
  schedule (a := 100) (tid := 1) (by decide) (fun _ _ => trivial) (xs := [ps 0, ps 0, us 0, us 0, us 0, us 0, ps 0, ps 0, ps 0, us 0, us 0 200 2, us 0, st 1, us 0, us 1, us 0, us 1, us 0, us 1, us 0, us 1, us 0, us 1, us 0,
   us 1, us 0, us 1, us 0, us 1, us 0, us 1, us 0, us 1, us 0, us 1, us 0, us 1, us 0, us 1, us 0, ps 1, us 0, us 1, us 0, us 1, us 0, us 1, us 0, us 1,
   us 0, rl 1, us 0, st 1, us 0, st 1, us 0, st 1, us 0, st 1, us 0, wn 1, us 0, us 0, us 0, st 0, st 0, st 0, st 0, st 0, us 0, us 0, us 0, us 0, ps 0,
   us 0, us 0, us 0, us 0, ps 0, ps 0, ps 0, ps 0, ps 0, us 0, us 0, us 0, us 0, ps 0, ps 0, ps 0, ps 0]) (by decide)

/-- (With the `signal` feature no signal is late.) -/
example : ∃ st act, IsExec detachPrg plain true () (NoLate true) st act ∧ Fair detachPrg plain true st act ∧ Proc.FinitelyMany (fun n => (st n).w.p) ∧
    ∃ n, Ended (st n) 202 :=
  schedule (a := 100) (tid := 1) (by decide) (fun _ _ => .inl rfl)
    (xs := [ps 0, ps 0, us 0 200 2, us 0 300 3, us 0, st 0, us 0 400 4, us 0, st 0, us 0, ps 0, ps 0, ps 0, ps 0, ps 0]) (by decide)

/-- The hypotheses of `C71_fair_early` are met by `detachPrg`, of `C71_fair_one_thread` by `idPrg`, of `C71_fair_no_wait` by `spawner`. -/
example : Proper detachPrg plain () ∧ EarlyOnly detachPrg true () ∧ Proper idPrg plain none ∧ (∀ a, AReach idPrg true none a → a.thr.length ≤ 2) ∧
    Proper spawner plain 0 ∧ NoWait spawner ∧ Settles idPrg true none := by
  refine ⟨detach_proper rfl, detach_early _, id_proper rfl rfl rfl, fun a A => (idInv A).len, ?_, ⟨?_, ?_⟩, id_settles _⟩
  · intro l a t A hst
    unfold Abs.keeps
    split
    · next cd k f i h => cases cd <;> simp [spawner, plain]
    · trivial
  · intro cd u k; cases cd <;> simp [spawner]
  · intro cd u k; cases cd <;> simp [spawner]

end Origin.Programs
