import Verif.Proof.Hello
import Verif.Props.FairUser
set_option linter.unusedSimpArgs false
/-!
# C70, C72, C73: more of the repository's example programs
-/

namespace Origin.Programs
open User

variable {c : Proc.Cfg} {sig : Bool}

/-- **C70 (example-crates/tiny).** When it ends, its status is 42.  It never crashes. -/
theorem C70_tiny (hok : c.Ok 0 0) {e : State Unit Unit} (R : Reach tinyPrg c sig () (fun _ _ => True) e) :
    ¬ Crashed e ∧ ∀ st, Ended e st → st = 42 := by
  obtain ⟨h1, a, h2, h3, h4⟩ := checked (P := fun a =>
      (match a.status with | none => true | some st => decide (st = 42))) (n := 10) hok
    (by intro cd u k; simp [tinyPrg]) (by intro cd u k; simp [tinyPrg]) (by decide) R
  refine ⟨h1, fun st hst => ?_⟩
  rw [← h4] at hst
  rw [hst] at h2
  simpa using h2

/-- **C70 (example-crates/origin-start-no-alloc).** When it ends, its status is 0 and it has printed its line.  It never crashes. -/
theorem C70_no_alloc (hok : c.Ok 0 0) {e : State (List String) Na} (R : Reach noAlloc c sig [] (fun _ _ => True) e) :
    ¬ Crashed e ∧ ∀ st, Ended e st → st = 0 ∧ e.mem = ["Hello!"] := by
  obtain ⟨h1, a, h2, h3, h4⟩ := checked (P := fun a =>
      (match a.status with | none => true | some st => decide (st = 0 ∧ a.mem = ["Hello!"]))) (n := 10) hok
    (by intro cd u k; cases cd <;> simp [noAlloc, print]) (by intro cd u k; cases cd <;> simp [noAlloc, print]) (by decide) R
  refine ⟨h1, fun st hst => ?_⟩
  rw [← h4] at hst
  rw [hst] at h2
  simp only [decide_eq_true_eq] at h2
  exact ⟨h2.1, h3 ▸ h2.2⟩

/-- The number of constructors of `external-start` that origin calls. -/
def extCtors (c : Proc.Cfg) : Nat := if c.initArray then 1 else 0

theorem extOk (hok : c.Ok (extCtors c) 0) : c.Ok (externalStart c.initArray).ctors.length (externalStart c.initArray).finis.length := by
  have : (externalStart c.initArray).ctors.length = extCtors c := by
    unfold externalStart extCtors
    cases c.initArray <;> rfl
  rw [this]; exact hok

/-- **C70 (example-crates/external-start).** In every schedule, with and without `init-array`: it never starts origin a second time; what it has
printed is a beginning of what it is expected to print; when it ends, its status is 0 and it has printed all of that.  It never crashes. -/
theorem C70_external_start (hok : c.Ok (extCtors c) 0) {e : State (Bool × List String) Es}
    (R : Reach (externalStart c.initArray) c sig (true, []) (fun _ _ => True) e) :
    ¬ Crashed e ∧ e.mem.2 <+: commonStderr ∧ ∀ st, Ended e st → st = 0 ∧ e.mem.2 = commonStderr := by
  obtain ⟨h1, a, h2, h3, h4⟩ := checked (P := fun a => decide (a.mem.2 <+: commonStderr) &&
      (match a.status with | none => true | some st => decide (st = 0 ∧ a.mem.2 = commonStderr))) (n := 60) (extOk hok)
    (by rintro (_ | _ | _ | x) u k <;> first | (cases x <;> simp [externalStart, liftOp, originStart, print]; done) | simp [externalStart])
    (by rintro (_ | _ | _ | x) u k <;> first | (cases x <;> simp [externalStart, liftOp, originStart, print]; done) | simp [externalStart])
    (by clear hok R; cases c.initArray <;> decide) R
  simp only [Bool.and_eq_true, decide_eq_true_eq] at h2
  refine ⟨h1, h3 ▸ h2.1, fun st hst => ?_⟩
  rw [← h4] at hst
  have := h2.2
  rw [hst] at this
  simp only [decide_eq_true_eq] at this
  exact ⟨this.1, h3 ▸ this.2⟩

/-- **C72 (example-crates/tiny).** -/
theorem C72_tiny (hok : c.Ok 0 0) {st : Nat → State Unit Unit} {act : Nat → Option Action}
    (X : IsExec tinyPrg c sig () (fun _ _ => True) st act) (F : Fair tinyPrg c sig st act) : ∃ n, Ended (st n) 42 := by
  obtain ⟨n, v, a, q1, q2, q3, q4⟩ := checked_ends (P := fun a => (match a.status with | none => true | some st => decide (st = 42))) (n := 10) hok
    (by intro cd u k; simp [tinyPrg]) (by intro cd u k; simp [tinyPrg])
    (by
      rw [feats]
      generalize c.thread = x; generalize c.threadAtExit = y; generalize c.programAtExit = z
      revert x y z
      decide) X F
  rw [q4] at q2
  simp only [decide_eq_true_eq] at q2
  subst q2
  exact ⟨n, q1⟩

/-- **C72 (example-crates/origin-start-no-alloc).** -/
theorem C72_no_alloc (hok : c.Ok 0 0) {st : Nat → State (List String) Na} {act : Nat → Option Action}
    (X : IsExec noAlloc c sig [] (fun _ _ => True) st act) (F : Fair noAlloc c sig st act) : ∃ n, Ended (st n) 0 ∧ (st n).mem = ["Hello!"] := by
  obtain ⟨n, v, a, q1, q2, q3, q4⟩ := checked_ends
    (P := fun a => (match a.status with | none => true | some st => decide (st = 0 ∧ a.mem = ["Hello!"]))) (n := 10) hok
    (by intro cd u k; cases cd <;> simp [noAlloc, print]) (by intro cd u k; cases cd <;> simp [noAlloc, print])
    (by
      rw [feats]
      generalize c.thread = x; generalize c.threadAtExit = y; generalize c.programAtExit = z
      revert x y z
      decide) X F
  rw [q4] at q2
  simp only [decide_eq_true_eq] at q2
  obtain ⟨rfl, q2⟩ := q2
  exact ⟨n, q1, q3 ▸ q2⟩

/-- **C72 (example-crates/external-start).** -/
theorem C72_external_start (hok : c.Ok (extCtors c) 0) (h1 : c.thread = true) (h2 : c.threadAtExit = true) (h3 : c.programAtExit = true)
    {st : Nat → State (Bool × List String) Es} {act : Nat → Option Action}
    (X : IsExec (externalStart c.initArray) c sig (true, []) (fun _ _ => True) st act) (F : Fair (externalStart c.initArray) c sig st act) :
    ∃ n, Ended (st n) 0 ∧ (st n).mem.2 = commonStderr := by
  obtain ⟨n, v, a, q1, q2, q3, q4⟩ := checked_ends
    (P := fun a => (match a.status with | none => true | some st => decide (st = 0 ∧ a.mem.2 = commonStderr))) (n := 60) (extOk hok)
    (by rintro (_ | _ | _ | x) u k <;> first | (cases x <;> simp [externalStart, liftOp, originStart, print]; done) | simp [externalStart])
    (by rintro (_ | _ | _ | x) u k <;> first | (cases x <;> simp [externalStart, liftOp, originStart, print]; done) | simp [externalStart])
    (by rw [feats, h1, h2, h3]; clear hok X F h1 h2 h3; cases c.initArray <;> decide) X F
  rw [q4] at q2
  simp only [decide_eq_true_eq] at q2
  obtain ⟨rfl, q2⟩ := q2
  exact ⟨n, q1, q3 ▸ q2⟩

/-! ## C73: tiny-hello -/

/-- The kernel writes no more than it is given. -/
def KernelOk (w : Nat → WRes) : Prop := ∀ i n, w i = .ok n → n ≤ helloMsg.length

/-- The first `write` that writes anything writes all of the message (those before it were interrupted or wrote nothing). -/
def Complete (w : Nat → WRes) : Prop := ∃ k, w k = .ok helloMsg.length ∧ ∀ j, j < k → w j = .intr ∨ w j = .ok 0

variable {w : Nat → WRes}

theorem Complete.of_status (h : Complete w) (hk : KernelOk w) {a : Abs Hello Th} (I : HInv w a) {v : Int} (hv : a.status = some v) :
    v = 0 ∧ a.mem.out = helloMsg := by
  obtain ⟨k, hw, hj⟩ := h
  rcases I.status v hv with ⟨h1, h2, -⟩ | ⟨-, j, h1, h2, h3⟩
  · refine ⟨h1, ?_⟩
    obtain ⟨i, n, q1, q2, q3, q4, l, q5, q6⟩ := outs_shape hk a.mem.calls (by rw [h2]; decide)
    have hlen := outs_length hk a.mem.calls
    have : ¬ i < k := fun h => by rcases hj i h with h | h <;> simp [h] at q2; exact q3 q2.symm
    have : ¬ k < i := fun h => by
      have := q4 k h
      simp only [sent, hw] at this
      have : helloMsg.length ≠ 0 := by decide
      omega
    obtain rfl : i = k := by omega
    rw [hw] at q2
    cases q2
    rw [q5, h2, List.take_length, List.length_append] at hlen
    have : l = [] := List.length_eq_zero_iff.mp (by omega)
    rw [I.out, q5, this, List.take_length, List.append_nil]
  · exfalso
    have hle : j ≤ k := Classical.byContradiction fun hn => by
      have := sent_mono w (show k + 1 ≤ j by omega)
      simp only [sent, hw] at this
      omega
    have h0 := sent_zero hj j hle
    rw [h1] at h3
    rcases Nat.lt_or_eq_of_le hle with h | rfl
    · rcases hj j h with h' | h' <;> simp [h', sent, h0] at h3
    · simp [hw, sent, h0] at h3

/-- **C73, the exact condition.** When `tiny-hello` ends, it has ended with status 0 having written its message if and only if the first `write` that wrote
anything wrote all of the message. -/
theorem C73_iff (hok : c.Ok 0 0) (hk : KernelOk w) {e : State Hello Th} (R : Reach (tinyHello w) c sig hello0 (fun _ _ => True) e) {st : Int}
    (h : Ended e st) : (st = 0 ∧ e.mem.out = helloMsg) ↔ Complete w := by
  have hd : NoDetach (tinyHello w) := by intro cd u k; cases cd <;> simp [tinyHello, check]
  obtain ⟨h1, a, ⟨_, A⟩, h3, h4⟩ := C69_refines_one_thread hok
    (fun a A => by obtain ⟨p, tid, ht, -⟩ := (hinv A).thr; simp [ht]) (.inr hd) R
  have I := hinv A.reach
  have hs := (h4 st).mpr h
  refine ⟨fun ⟨h0, ho⟩ => ?_, fun C => by rw [← h3]; exact C.of_status hk I hs⟩
  rw [← h3, I.out] at ho
  have hlen := outs_length hk a.mem.calls
  rw [ho] at hlen
  obtain ⟨i, n, q1, q2, q3, q4, l, q5, q6⟩ := outs_shape hk a.mem.calls (by rw [← hlen]; decide)
  rw [q5] at ho
  have hn : n = helloMsg.length := Nat.le_antisymm (hk i n q2) (msg_split q3 ho q6)
  subst hn
  refine ⟨i, q2, fun j hj => ?_⟩
  have := q4 j hj
  simp only [sent] at this
  cases hw : w j with
  | ok n => simp only [hw] at this; right; congr; omega
  | intr => exact .inl rfl
  | err =>
    exfalso
    rcases I.status st hs with ⟨-, -, h'⟩ | ⟨h', -⟩
    · exact h' j (by omega) hw
    · omega

/-- **C73 (when the kernel does not split the write).** In every schedule: `tiny-hello`, when it ends, has status 0 and has written exactly its message.  It
never crashes.  (False if a `write` is short: `C73_false`.) -/
theorem C73_tiny_hello_partial (hok : c.Ok 0 0) (hk : KernelOk w) (hw : Complete w) {e : State Hello Th}
    (R : Reach (tinyHello w) c sig hello0 (fun _ _ => True) e) : ¬ Crashed e ∧ ∀ st, Ended e st → st = 0 ∧ e.mem.out = helloMsg := by
  have hd : NoDetach (tinyHello w) := by intro cd u k; cases cd <;> simp [tinyHello, check]
  exact ⟨(C69_refines_one_thread hok (fun a A => by obtain ⟨p, tid, ht, -⟩ := (hinv A).thr; simp [ht]) (.inr hd) R).1,
    fun st h => (C73_iff hok hk R h).mpr hw⟩

theorem hello_registers {a : Abs Hello Th} (I : HInv w a) (t : Nat) : a.registers (tinyHello w) t = false := by
  obtain ⟨-, ⟨p, tid, ht, hp⟩, -⟩ := I
  unfold Abs.registers
  cases t with
  | succ t => simp [ht]
  | zero => simp only [ht, List.getElem?_cons_zero]; cases hp <;> rfl

theorem hello_settles (lk : Bool) : Settles (tinyHello w) lk hello0 := by
  intro ab who X
  refine ⟨0, fun n t _ _ => ?_⟩
  obtain ⟨l, A⟩ := X.reachU n
  exact hello_registers (hinv A.plain) t

theorem hello_proper : Proper (tinyHello w) c hello0 := by
  intro l a t A _
  obtain ⟨-, ⟨p, tid, ht, hp⟩, -⟩ := hinv A.plain
  unfold Abs.keeps
  cases t with
  | succ t => simp [ht]
  | zero => simp only [ht, List.getElem?_cons_zero]; cases hp <;> simp [tinyHello, check]

/-- **C73 (it ends).** On every fair schedule on which the kernel does not split the write, `tiny-hello` ends, with status 0, having written exactly its
message. -/
theorem C73_ends_partial (hok : c.Ok 0 0) (hk : KernelOk w) (hw : Complete w) {st : Nat → State Hello Th} {act : Nat → Option Action}
    (X : IsExec (tinyHello w) c sig hello0 (fun _ _ => True) st act) (F : Fair (tinyHello w) c sig st act) :
    ∃ n, Ended (st n) 0 ∧ (st n).mem.out = helloMsg := by
  have hd : NoDetach (tinyHello w) := by intro cd u k; cases cd <;> simp [tinyHello, check]
  have hone : ∀ a, AReach (tinyHello w) (locks c) hello0 a → a.thr.length ≤ 2 := fun a A => by obtain ⟨p, tid, ht, -⟩ := (hinv A).thr; simp [ht]
  have X' := X.orderly fun _ ih _ hs => ih.one_step hok hone (.inr hd) hs
  obtain ⟨-, ab, who, R, AF, -, hq⟩ := C71_fair_one_thread hok hello_proper hone (.inr hd) X F (many_of_settles hok X' (hello_settles _))
  obtain ⟨k, h1, h2⟩ := hw
  obtain ⟨n, v, hv⟩ := R.ranked AF (hRank k) (fun l a a' t r x A hs => hrank_step h1 h2 (hinv A.plain) hs) (fun l a A h => hello_goes (hinv A.plain) h)
  obtain ⟨l, A⟩ := R.reachU n
  obtain ⟨rfl, ho⟩ := Complete.of_status ⟨k, h1, h2⟩ hk (hinv A.plain) hv
  exact ⟨n, ((hq n).2 _).mp hv, (hq n).1 ▸ ho⟩

/-- **C73 is false** when a `write` is short: line 13 passes `message`, not `remaining`, to `write` again.  If the kernel takes 7 bytes at a time,
`tiny-hello` ends with status 0, as if all were well, having written "Hello, Hello, ". -/
theorem C73_false : KernelOk (fun _ => .ok 7) ∧ ∃ e, Reach (tinyHello fun _ => .ok 7) plain false hello0 (fun _ _ => True) e ∧ Ended e 0 ∧
    decide (e.mem.out = "Hello, Hello, ".toList) = true := by
  refine ⟨fun i n h => by cases h; decide, ?_⟩
  exact ends_run (a := 100) (tid := 1) (by decide) [ps 0, ps 0, us 0, us 0, us 0, us 0, us 0, us 0, ps 0] (fun e : State Hello Th => decide (e.mem.out = "Hello, Hello, ".toList)) (by decide)

/-! ## The hypotheses are met -/

/-- A kernel that interrupts the first `write` and completes the second. -/
def wGood : Nat → WRes := fun i => if i = 0 then .intr else .ok 14

example : KernelOk wGood ∧ Complete wGood :=
  ⟨fun i n h => by unfold wGood at h; split at h <;> cases h; decide, 1, by decide, by decide⟩

example : ∃ e, Reach (tinyHello wGood) plain false hello0 (fun _ _ => True) e ∧ Ended e 0 ∧ decide (e.mem.out = helloMsg) = true :=
  ends_run (a := 100) (tid := 1) (by decide) [ps 0, ps 0, us 0, us 0, us 0, us 0, us 0, us 0, ps 0] (fun e : State Hello Th => decide (e.mem.out = helloMsg)) (by decide)

/-- A `write` that fails: `tiny-hello` traps. -/
example : ∃ e, Reach (tinyHello fun _ => .err) plain false hello0 (fun _ _ => True) e ∧ Ended e 132 ∧ decide (e.mem.out = []) = true :=
  ends_run (a := 100) (tid := 1) (by decide) [ps 0, ps 0, us 0, us 0, us 0, ps 0] (fun e : State Hello Th => decide (e.mem.out = [])) (by decide)

/-- `tiny`. -/
example : ∃ e, Reach tinyPrg plain false () (fun _ _ => True) e ∧ Ended e 42 ∧ true = true :=
  ends_run (a := 100) (tid := 1) (by decide) [ps 0, ps 0, us 0, ps 0, ps 0, ps 0, ps 0, ps 0] (fun _ => true) (by decide)

/-- `origin-start-no-alloc`. -/
example : ∃ e, Reach noAlloc plain false [] (fun _ _ => True) e ∧ Ended e 0 ∧ decide (e.mem = ["Hello!"]) = true :=
  ends_run (a := 100) (tid := 1) (by decide) [ps 0, ps 0, us 0, us 0, ps 0, ps 0, ps 0, ps 0, ps 0] (fun e => decide (e.mem = ["Hello!"])) (by decide)

/-- A configuration with all features, one constructor and no `.fini_array` function. -/
def oneCtor : Proc.Cfg := { plain with initEnd := 72 }

example : oneCtor.Ok (extCtors oneCtor) 0 := by constructor <;> decide

end Origin.Programs
