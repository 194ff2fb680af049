import Verif.Proof.Races6
import Verif.Props.Lifecycle
/-!
# Memory ordering between threads: C55, C56

About every sequence of accesses (`Trace`) of the lifecycle model, with the happens-before relation of the C++/Rust memory model
(`Spec/Races.lean`): program order, the start of a thread, atomic reads that see atomic writes, and nothing else.
-/

namespace Origin.Life

variable {sig : Bool} {s : State} {tr : List Acc}

/-! ## C55 -/

/-- **C55 (for a thread `h` none of whose waiters gets a stray wake-up).** There is no data race on `h`'s record: of any two non-atomic accesses to it
(by `create`, by `h` itself in `at_exit` and in its exit, by `join` or by `detach`, including freeing it), one happens before the other. -/
theorem C55_race_free_partial {h : Inst} (R : Trace sig (OrderlyFor h sig) s tr) : RaceFree tr h :=
  (trace_rinv (fun _ => Reach.inv) (only_self h) R).free

/-! ## C56 -/

/-- **C56 (join; for a thread `h` none of whose waiters gets a stray wake-up).** After `join(h)` returned to `j`, everything `h` did — in its function
and in its `at_exit` functions — happens before everything `j` does from then on. -/
theorem C56_join_synchronizes_partial {h j : Inst} {v : Nat} (R : Trace sig (OrderlyFor h sig) s tr) (hj : Ev.joined j h v ∈ s.log)
    {later : List Acc} {i k : Nat} {a b : Acc} (hi : tr[i]? = some a) (ha : a.actor = h)
    (hk : tr.length ≤ k) (hb : (tr ++ later)[k]? = some b) (hbj : b.actor = j) : HB (tr ++ later) i k :=
  ((trace_jinv (fun _ => Reach.inv) (only_self h) R).joined j v hj i a hi ha).later hb hk hbj

/-- **C56 (create).** In every history: what a thread did before it created `h` happens before everything `h` does. -/
theorem C56_create_synchronizes {h p : Inst} (R : Trace sig Any s tr) (h0 : h ≠ 0) {i k m : Nat} {a b : Acc}
    (hc : tr[k]? = some (.init p h)) (hi : tr[i]? = some a) (ha : a.actor = p) (hik : i ≤ k) (hm : tr[m]? = some b) (hb : b.actor = h) :
    HB tr i m := by
  have C := trace_cinv (fun _ => Reach.any) R
  have hkm : k < m := by
    rcases Nat.lt_or_ge k m with h1 | h1
    · exact h1
    · have := C.order k m p h b hc hm hb
      have hkm : k = m := by omega
      subst hkm
      rw [hc] at hm; injection hm with hm; subst hm
      exact absurd hb (C.ne k p h hc h0)
  have h2 : HB tr k m := .spawn hkm hc hm hb
  rcases Nat.lt_or_ge i k with h1 | h1
  · exact .trans (.po h1 hi hc ha) h2
  · have : i = k := by omega
    subst this; exact h2

/-! ## executions -/

/-- A step of the model, an access of a thread to its own record, or an access of its client's. -/
inductive Op
  | act (x : Action)
  | touch (t : Inst)
  | user (t : Inst) (x : Nat)

def strayFor? (h : Option Inst) (s : State) (x : Action) : Bool :=
  match h with
  | some h => decide (StrayFor h s x)
  | none => false

/-- Run, recording the accesses; stray wake-ups of waiters for `h` only if `h` is `none`. -/
def runOps (h : Option Inst) (s : State) (tr : List Acc) : List Op → Option (State × List Acc)
  | [] => some (s, tr)
  | .act x :: xs =>
    if strayFor? h s x then none
    else (step true s x).bind fun s' => runOps h s' (tr ++ access s x) xs
  | .touch t :: xs =>
    match s.thr t with
    | some T => if s.inUser t T then runOps h s (tr ++ [.plain t t]) xs else none
    | none => none
  | .user t x :: xs =>
    match s.thr t with
    | some T => if s.inUser t T then runOps h s (tr ++ [.user t x]) xs else none
    | none => none

theorem trace_runOps {ho : Option Inst} {P : State → Action → Prop}
    (hP : ∀ s x, strayFor? ho s x = false → P s x) (xs : List Op) :
    ∀ {s tr s' tr'}, Trace true P s tr → runOps ho s tr xs = some (s', tr') → Trace true P s' tr' := by
  induction xs with
  | nil => intro s tr s' tr' R h; simp [runOps] at h; obtain ⟨rfl, rfl⟩ := h; exact R
  | cons x xs ih =>
    intro s tr s' tr' R h
    cases x with
    | act x =>
      simp only [runOps] at h
      split at h
      · cases h
      · next hn =>
        rw [Option.bind_eq_some_iff] at h
        obtain ⟨s1, h1, h2⟩ := h
        exact ih (.step R (hP s x (by simpa using hn)) h1) h2
    | touch t =>
      simp only [runOps] at h
      split at h
      · next T hT =>
        split at h
        · next hu => exact ih (.touch R hT hu) h
        · cases h
      · cases h
    | user t x =>
      simp only [runOps] at h
      split at h
      · next T hT =>
        split at h
        · next hu => exact ih (.user x R hT hu) h
        · cases h
      · cases h

/-- The start of `strayRun`: thread 2, created at thread 1's address, uses its record and memory of the client's; then the kernel's wake-up for
thread 1 reaches `join(2)`, which frees the record and returns. -/
def strayOps : List Op :=
  [ .act (.create 0 200 2), .act (.step 1), .act (.ret 1 5), .act (.dtorsDone 1), .act (.step 1), .act (.step 1), .act (.step 1), .act (.step 1),
    .act (.join 0 1), .act (.step 0), .act (.step 0), .act (.step 0), .act (.step 0), .act (.step 0),
    .act (.create 0 200 3), .act (.step 2), .touch 2, .user 2 7, .act (.join 0 2), .act (.step 0), .act (.step 0),
    .act (.wake 1 (some 0)), .act (.step 0), .act (.step 0), .act (.step 0), .act (.step 0), .user 0 7 ]

def strayTr : List Acc :=
  [ .init 0 0, .init 0 1, .plain 1 1, .atomic 1 1 .detached true true, .atomic 1 1 .ret false true,
    .atomic 0 1 .ret true false, .plain 0 1, .plain 0 1, .plain 0 1,
    .init 0 2, .plain 2 2, .user 2 7, .atomic 0 2 .ret true false, .plain 0 2, .plain 0 2, .plain 0 2, .user 0 7 ]

theorem stray_trace : ∃ s, Trace true Any s strayTr ∧ Ev.joined 0 2 0 ∈ s.log := by
  have h : ((runOps none (init 100 1) [.init 0 0] strayOps).map fun p => (p.2, decide (Ev.joined 0 2 0 ∈ p.1.log))) = some (strayTr, true) := by decide
  rw [Option.map_eq_some_iff] at h
  obtain ⟨⟨s, tr⟩, h1, h2⟩ := h
  simp at h2
  obtain ⟨rfl, h2⟩ := h2
  exact ⟨s, trace_runOps (P := Any) (fun _ _ _ => trivial) _ (.init 100 1 (by decide)) h1, h2⟩

/-- Nothing thread 2 does there happens before anything another thread does. -/
theorem stray_hb {i m : Nat} (h : HB strayTr i m) : (∃ a, strayTr[i]? = some a ∧ a.actor = 2) → ∃ b, strayTr[m]? = some b ∧ b.actor = 2 := by
  have two : ∀ (i : Nat) (a : Acc), strayTr[i]? = some a → a.actor = 2 → a = .plain 2 2 ∨ a = .user 2 7 := by
    intro i a h1 h2
    have := List.mem_of_getElem? h1
    revert a
    have key : ∀ a ∈ strayTr, a.actor = 2 → a = .plain 2 2 ∨ a = .user 2 7 := by decide
    exact fun a h1 h2 h3 => key a h3 h2
  induction h with
  | po _ h1 h2 h3 => rintro ⟨a, q1, q2⟩; rw [h1] at q1; injection q1 with q1; subst q1; exact ⟨_, h2, h3 ▸ q2⟩
  | spawn _ h1 h2 h3 =>
    rintro ⟨a, q1, q2⟩
    rw [h1] at q1; injection q1 with q1; subst q1
    rcases two _ _ h1 q2 with h | h <;> cases h
  | sync _ h1 h2 _ =>
    rintro ⟨a, q1, q2⟩
    rw [h1] at q1; injection q1 with q1; subst q1
    rcases two _ _ h1 q2 with h | h <;> cases h
  | trans _ _ ih1 ih2 => exact fun h => ih2 (ih1 h)

/-- **C55 is false** without the restriction: `join` reads and frees the record of a thread that is still using it. -/
theorem C55_false : ∃ s tr, Trace true Any s tr ∧ ¬ RaceFree tr 2 := by
  obtain ⟨s, R, -⟩ := stray_trace
  refine ⟨s, _, R, fun h => ?_⟩
  have := stray_hb (h 10 13 _ _ (by decide) rfl rfl rfl rfl) ⟨_, rfl, rfl⟩
  obtain ⟨b, h1, h2⟩ := this
  injection h1 with h1; subst h1; cases h2

/-- **C56 (join) is false** without the restriction: what thread 2 did is not ordered before what its joiner does after `join` returned. -/
theorem C56_join_false : ∃ s tr, Trace true Any s (tr ++ [.user 0 7]) ∧ Ev.joined 0 2 0 ∈ s.log ∧
    ∃ i, tr[i]? = some (.user 2 7) ∧ ¬ HB (tr ++ [.user 0 7]) i tr.length := by
  obtain ⟨s, R, hj⟩ := stray_trace
  refine ⟨s, strayTr.take 16, R, hj, 11, rfl, fun h => ?_⟩
  obtain ⟨b, h1, h2⟩ := stray_hb h ⟨_, rfl, rfl⟩
  injection h1 with h1; subst h1; cases h2

/-! ### non-vacuity -/

/-- Main writes and creates thread 1, which reads, registers an `at_exit` function, writes, returns and runs the function, which writes; main joins
it, is asleep in that and is woken. -/
def goodOps : List Op :=
  [ .user 0 4, .act (.create 0 200 2), .act (.step 1), .user 1 4, .touch 1, .user 1 7, .act (.join 0 1), .act (.step 0), .act (.step 0), .act (.ret 1 5), .touch 1, .user 1 8,
    .act (.dtorsDone 1), .act (.step 1), .act (.step 1), .act (.step 1), .act (.step 1), .act (.wake 1 (some 0)),
    .act (.step 0), .act (.step 0), .act (.step 0), .act (.step 0) ]

def goodTr : List Acc :=
  [ .init 0 0, .user 0 4, .init 0 1, .user 1 4, .plain 1 1, .user 1 7, .plain 1 1, .user 1 8, .plain 1 1, .atomic 1 1 .detached true true,
    .atomic 1 1 .ret false true, .atomic 0 1 .ret true false, .plain 0 1, .plain 0 1, .plain 0 1 ]

theorem good_trace : ∃ s, Trace true (OrderlyFor 1 true) s goodTr ∧ Ev.joined 0 1 5 ∈ s.log := by
  have h : ((runOps (some 1) (init 100 1) [.init 0 0] goodOps).map fun p => (p.2, decide (Ev.joined 0 1 5 ∈ p.1.log))) = some (goodTr, true) := by decide
  rw [Option.map_eq_some_iff] at h
  obtain ⟨⟨s, tr⟩, h1, h2⟩ := h
  simp at h2
  obtain ⟨rfl, h2⟩ := h2
  exact ⟨s, trace_runOps (P := OrderlyFor 1 true) (fun _ _ h => ⟨by simpa [strayFor?] using h, .inl rfl⟩) _ (.init 100 1 (by decide)) h1, h2⟩

/-- The last access of thread 1 to its record (8) happens before main's freeing it (14), and what it wrote in its function and in its `at_exit`
function (5, 7) before what main does after `join` (15). -/
example : HB goodTr 8 14 ∧ HB (goodTr ++ [.user 0 7]) 5 15 ∧ HB (goodTr ++ [.user 0 8]) 7 15 := by
  obtain ⟨s, R, hj⟩ := good_trace
  exact ⟨C55_race_free_partial R 8 14 _ _ (by decide) rfl rfl rfl rfl,
    C56_join_synchronizes_partial R hj (a := .user 1 7) rfl rfl (by decide) rfl rfl,
    C56_join_synchronizes_partial R hj (a := .user 1 8) rfl rfl (by decide) rfl rfl⟩

theorem Trace.forget {P : State → Action → Prop} (R : Trace sig P s tr) : Trace sig Any s tr := by
  induction R with
  | init a tid ht => exact .init a tid ht
  | step _ _ hs ih => exact .step ih trivial hs
  | touch _ hT hu ih => exact .touch ih hT hu
  | user x _ hT hu ih => exact .user x ih hT hu

/-- What main wrote before creating thread 1 (1) happens before what thread 1 does first (3). -/
example : HB goodTr 1 3 := by
  obtain ⟨s, R, -⟩ := good_trace
  exact C56_create_synchronizes (k := 2) (p := 0) (h := 1) R.forget (by decide) rfl rfl rfl (by decide) rfl rfl

/-- Detached paths: thread 1 is detached in the middle of its exit and freed by main; thread 2 is detached while running and frees itself. -/
example : ∃ s tr, Trace true (OrderlyFor 1 true) s tr ∧ Ev.unmap 1 0 ∈ s.log ∧ Ev.unmap 2 2 ∈ s.log ∧ .plain 1 1 ∈ tr ∧ .plain 0 1 ∈ tr ∧
    RaceFree tr 1 := by
  have h : ((runOps (some 1) (init 100 1) [.init 0 0]
    [ .act (.create 0 200 2), .act (.step 1), .touch 1, .act (.ret 1 5), .act (.dtorsDone 1), .act (.step 1), .act (.detach 0 1), .act (.step 0),
      .act (.step 1), .act (.step 1), .act (.step 1), .act (.step 0), .act (.step 0), .act (.step 0), .act (.step 0), .act (.wake 1 none),
      .act (.create 0 200 2), .act (.detach 0 2), .act (.step 0), .act (.step 2), .touch 2, .act (.ret 2 8), .act (.dtorsDone 2), .act (.step 2), .act (.step 2),
      .act (.step 2), .act (.step 2), .act (.step 2), .act (.step 2) ]).map fun p =>
    decide (Ev.unmap 1 0 ∈ p.1.log ∧ Ev.unmap 2 2 ∈ p.1.log ∧ .plain 1 1 ∈ p.2 ∧ .plain 0 1 ∈ p.2)) = some true := by decide
  rw [Option.map_eq_some_iff] at h
  obtain ⟨⟨s, tr⟩, h1, h2⟩ := h
  have R := trace_runOps (P := OrderlyFor 1 true) (fun _ _ h => ⟨by simpa [strayFor?] using h, .inl rfl⟩) _ (.init 100 1 (by decide)) h1
  simp only [decide_eq_true_eq] at h2
  exact ⟨s, tr, R, h2.1, h2.2.1, h2.2.2.1, h2.2.2.2, C55_race_free_partial R⟩

end Origin.Life
