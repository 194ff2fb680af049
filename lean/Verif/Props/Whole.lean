import Verif.Proof.Whole3
import Verif.Props.Process
/-!
# C59: `join` and a thread's `at_exit` functions

About every history of the combined model (`Model/Whole.lean`): any number of threads creating, joining and detaching each other, registering
functions, calling `exit`, in any interleaving.  `OrderlyFor h` (`Spec/Lifecycle.lean`) excludes the stray wake-ups that make C21 false.
-/

namespace Origin.Whole
open Proc (Whenever)
open Life (OrderlyFor)

variable {c : Proc.Cfg} {sig : Bool} {s : State}

theorem Reach.knownFor {h : Nat} (R : Reach c sig (OrderlyFor h sig) s) : Known c sig (OrderlyFor h sig) (some h) s :=
  R.known fun h' e _ _ hp => by cases e; exact hp

/-- **C59 (`join`; for a thread none of whose waiters gets a stray wake-up).** Whenever `join(h)` returns, every function that `h` has registered with
`at_exit` has been called. -/
theorem C59_join_partial {h : Nat} (R : Reach c sig (OrderlyFor h sig) s) (j v : Nat) :
    Whenever s.log (.inl (.joined j h v)) fun old => AllCalled old h :=
  fun _ _ hl => (R.knownFor.inv.trace.at hl) rfl

/-- **C59 (memory; same restriction).** Whenever a thread's memory (its stack, TLS and record) is unmapped, by itself or by the thread that joined or
detached it, every function that it has registered with `at_exit` has been called: they run with their thread's memory in place. -/
theorem C59_unmap_partial {h : Nat} (R : Reach c sig (OrderlyFor h sig) s) (j : Nat) :
    Whenever s.log (.inl (.unmap h j)) fun old => AllCalled old h :=
  fun _ _ hl => (R.knownFor.inv.trace.at hl) rfl

/-- **C59 (nothing later; same restriction).** Nothing happens on a thread — no `at_exit` function is registered or called, no exit begun — once a
`join` on it has returned or its memory is unmapped. -/
theorem C59_nothing_later_partial {h : Nat} (R : Reach c sig (OrderlyFor h sig) s) (x : Proc.Ev) (hx : x.on = some h) :
    Whenever s.log (.inr x) fun old => ¬ Joined old h ∧ ¬ Unmapped old h :=
  fun _ _ hl => (R.knownFor.inv.trace.at hl).1 h rfl hx

/-- **C59 (order).** In every history: a thread's own exit calls its `at_exit` functions only after the thread's function has returned. -/
theorem C59_after_return {P : Life.State → Life.Action → Prop} (R : Reach c sig P s) (t f : Nat) :
    Whenever s.log (.inr (.tCall t none f)) fun old => ∃ v, .inl (.returned t v) ∈ old :=
  fun _ _ hl => ((R.known (o := none) (fun _ e => by cases e)).inv.trace.at hl).2 t f rfl

/-- **C59 (nothing is lost by combining).** Everything proved of histories of the two models alone holds of their combination. -/
theorem C59_parts {P : Life.State → Life.Action → Prop} (R : Reach c sig P s) :
    Life.Reach sig P s.l ∧ Proc.Reach c s.p ∧ (∀ e, .inl e ∈ s.log ↔ e ∈ s.l.log) ∧ ∀ e, .inr e ∈ s.log ↔ e ∈ s.p.log := by
  have K := R.known (o := none) (fun _ e => by cases e)
  exact ⟨K.life, K.proc, K.inv.inl, K.inv.inr⟩

/-! ## a concrete history, and the one that goes wrong -/

instance (e : Ev) (l : List Ev) : Decidable (e ∈ l) := @List.instDecidableMemOfLawfulBEq Ev instBEqOfDecidableEq inferInstance e l

theorem reach_run (xs : List Action) : ∀ {s s' : State}, Reach c sig (fun _ _ => True) s → run c sig s xs = some s' →
    Reach c sig (fun _ _ => True) s' := by
  induction xs with
  | nil => intro s s' R h; simp [run] at h; subst h; exact R
  | cons x xs ih =>
    intro s s' R h
    simp only [run, Option.bind_eq_some_iff] at h
    obtain ⟨s1, h1, h2⟩ := h
    exact ih (.step R (fun _ _ => trivial) h1) h2

/-- Thread 1 registers two functions, returns 5, calls them (newest first; the first registers another one, which is called next) and exits; main, which joined
it, gets 5. -/
def goodRun : List Action :=
  [ .proc (.step 0), .proc (.step 0), .create 0 200 2, .life (.step 1), .proc (.regThr 1), .proc (.regThr 1), .life (.join 0 1), .life (.step 0),
    .life (.step 0), .ret 1 5, .proc (.step 1), .proc (.regThr 1), .proc (.ret 1 0), .proc (.step 1), .proc (.ret 1 0), .proc (.step 1),
    .proc (.ret 1 0), .release 1, .life (.step 1), .life (.step 1), .life (.step 1), .life (.step 1), .life (.wake 1 (some 0)),
    .life (.step 0), .life (.step 0), .life (.step 0), .life (.step 0) ]

example : (run Proc.demo true (init 100 1) goodRun).map State.log = some
    [ .inl (.joined 0 1 5), .inl (.unmap 1 0), .inl (.cleared 1), .inl (.exited 1), .inr (.released 1), .inr (.tCall 1 none 0),
      .inr (.tCall 1 none 2), .inr (.tReg 1 2), .inr (.tCall 1 none 1), .inl (.returned 1 5), .inl (.joinCall 0 1), .inr (.tReg 1 1),
      .inr (.tReg 1 0), .inr (.spawned 1), .inl (.created 0 1 200 2), .inr (.ctor 100 ⟨1, 1000, 1016⟩), .inr .runtimeInit,
      .inl (.created 0 0 100 1) ] := by
  decide

/-- None of `goodRun` is stray: it is a history of `C59_join_partial`. -/
example : ∃ s, Reach Proc.demo true (OrderlyFor 1 true) s ∧ .inl (.joined 0 1 5) ∈ s.log ∧ .inr (.tReg 1 2) ∈ s.log := by
  have key : ∀ (xs : List Action), (∀ x ∈ xs, ∀ y, x.life? = some y → ∀ t j, y ≠ .wake t (some j)) → ∀ {s s' : State},
      Reach Proc.demo true (OrderlyFor 1 true) s → run Proc.demo true s xs = some s' → Reach Proc.demo true (OrderlyFor 1 true) s' := by
    intro xs
    induction xs with
    | nil => intro _ s s' R h; simp [run] at h; subst h; exact R
    | cons x xs ih =>
      intro hx s s' R h
      simp only [run, Option.bind_eq_some_iff] at h
      obtain ⟨s1, h1, h2⟩ := h
      refine ih (fun x h => hx x (List.mem_cons_of_mem _ h)) (.step R (fun y hy => ⟨fun hs => ?_, .inl rfl⟩) h1) h2
      have := hx x List.mem_cons_self y hy
      cases y <;> try exact hs
      rename_i t o
      cases o with
      | none => exact hs
      | some j => exact this t j rfl
  have run_append : ∀ (xs ys : List Action) (s : State), run Proc.demo true s (xs ++ ys) = (run Proc.demo true s xs).bind (run Proc.demo true · ys) := by
    intro xs
    induction xs with
    | nil => intro ys s; rfl
    | cons x xs ih =>
      intro ys s
      simp only [List.cons_append, run]
      cases step Proc.demo true s x with
      | none => rfl
      | some s1 => exact ih ys s1
  have e : goodRun = goodRun.take 22 ++ (.life (.wake 1 (some 0)) :: goodRun.drop 23) := by decide
  have h : (run Proc.demo true (init 100 1) (goodRun.take 22)).isSome ∧
      ((run Proc.demo true (init 100 1) (goodRun.take 22)).map fun s => decide (Life.Ev.cleared 1 ∈ s.l.log)) = some true ∧
      ((run Proc.demo true (init 100 1) goodRun).map fun s => decide ((.inl (.joined 0 1 5) : Ev) ∈ s.log ∧ (.inr (.tReg 1 2) : Ev) ∈ s.log)) = some true := by
    decide
  obtain ⟨-, h2, h3⟩ := h
  rw [Option.map_eq_some_iff] at h2 h3
  obtain ⟨s1, r1, c1⟩ := h2
  obtain ⟨s2, r2, c2⟩ := h3
  simp only [decide_eq_true_eq] at c1 c2
  refine ⟨s2, ?_, c2⟩
  rw [e, run_append, r1] at r2
  simp only [Option.bind_some, run, Option.bind_eq_some_iff] at r2
  obtain ⟨s3, r3, r4⟩ := r2
  have R1 := key (goodRun.take 22) (by simp [goodRun, Action.life?]) (.init 100 1 (by decide)) r1
  refine key (goodRun.drop 23) (by simp [goodRun, Action.life?]) (.step R1 (fun y hy => ⟨?_, .inl rfl⟩) r3) r4
  cases hy
  rintro ⟨k, a, -, h⟩
  exact h c1

/-- Thread 1 exits; main joins it while the kernel is between clearing its id and waking; main creates thread 2, which gets the same memory and
registers a function, and joins it; the kernel's wake-up for thread 1 wakes main. -/
def strayRun : List Action :=
  [ .proc (.step 0), .proc (.step 0), .create 0 200 2, .life (.step 1), .ret 1 5, .release 1, .life (.step 1), .life (.step 1), .life (.step 1),
    .life (.step 1), .life (.join 0 1), .life (.step 0), .life (.step 0), .life (.step 0), .life (.step 0), .life (.step 0),
    .create 0 200 3, .life (.step 2), .proc (.regThr 2), .life (.join 0 2), .life (.step 0), .life (.step 0),
    .life (.wake 1 (some 0)), .life (.step 0), .life (.step 0), .life (.step 0), .life (.step 0) ]

/-- **C59 is false** without the restriction: a `join` returns although the thread's function is still running and its `at_exit` function has not been
called. -/
theorem C59_false : ∃ s, Reach Proc.demo true (fun _ _ => True) s ∧ Joined s.log 2 ∧ ¬ AllCalled s.log 2 := by
  have h : ((run Proc.demo true (init 100 1) strayRun).map fun s => decide ((.inl (.joined 0 2 0) : Ev) ∈ s.log ∧ (.inr (.tReg 2 0) : Ev) ∈ s.log) &&
      s.log.all (fun e => match e with | .inr (.tCall ..) => false | _ => true)) = some true := by
    decide
  rw [Option.map_eq_some_iff] at h
  obtain ⟨s, h1, h2⟩ := h
  rw [Bool.and_eq_true, decide_eq_true_eq, List.all_eq_true] at h2
  refine ⟨s, reach_run strayRun (.init 100 1 (by decide)) h1, ⟨0, 0, h2.1.1⟩, fun ha => ?_⟩
  obtain ⟨o, ho⟩ := ha 0 h2.1.2
  have := h2.2 _ ho
  cases this

end Origin.Whole
