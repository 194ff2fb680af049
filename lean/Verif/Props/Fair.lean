import Verif.Proof.Fair2
import Verif.Props.Lifecycle
/-!
# C61: exits complete, calls return, memory is released — on every fair schedule

The other lifecycle properties say what is true *when* a `join` returns.  These say that it does return: liveness, over infinite executions, any
number of threads, under weak fairness (`Spec/Fair.lean`).
-/

namespace Origin.Life

variable {w : Inst → Bool} {b sig : Bool} {s s' : State}
variable {P : State → Action → Prop} {st : Nat → State} {act : Nat → Option Action}

theorem callStep_log {t : Inst} {r : Rec} {c : Call} (h : callStep s t r c = some s') {e : Ev} (he : e ∈ s.log) : e ∈ s'.log := by
  cases c <;> simp only [callStep] at h <;> (try split at h) <;> (try cases h)
  case unmap k a x v => cases k <;> simp [State.finish, State.setCall, State.setCons, State.setRec, State.ev, he]
  case drop.isFalse k a x v o ho => cases k <;> simp [State.finish, State.setCall, State.setCons, State.ev, he]
  all_goals simp [State.setCall, State.setCons, State.setRec, State.ev, he]

/-- History is never rewritten. -/
theorem log_mono {x : Action} (h : step sig s x = some s') {e : Ev} (he : e ∈ s.log) : e ∈ s'.log := by
  have out : ∀ {es : List Ev}, e ∈ s.log → e ∈ es ++ s.log := fun h => List.mem_append_right _ h
  cases x with
  | step t =>
    simp only [step] at h
    split at h
    · next X hX =>
      split at h
      · injection h with h; subst h; exact List.mem_cons_of_mem _ he
      · split at h
        · split at h <;> (injection h with h; subst h; exact List.mem_cons_of_mem _ he)
        · injection h with h; subst h; exact he
      · cases h
      · cases h
      · split at h
        · injection h with h; subst h; exact List.mem_cons_of_mem _ he
        · split at h
          · split at h
            · cases h
            · split at h
              · injection h with h; subst h; exact List.mem_cons_of_mem _ he
              · exact callStep_log h he
          · cases hX' : X.stage <;> simp only [ownStep, hX'] at h <;> (try split at h) <;> (try cases h) <;>
              simp [State.setStage, State.modThr, State.setRec, State.ev, he]
    · cases h
  | create t a tid =>
    simp only [step] at h
    split at h
    · split at h
      · split at h <;> (injection h with h; subst h; exact List.mem_cons_of_mem _ he)
      · cases h
    · cases h
  | ret t v =>
    simp only [step] at h
    split at h
    · split at h
      · split at h <;> (injection h with h; subst h; exact List.mem_cons_of_mem _ he)
      · cases h
    · cases h
  | dtorsDone t =>
    simp only [step] at h
    split at h
    · split at h
      · split at h
        · injection h with h; subst h; exact List.mem_cons_of_mem _ he
        · injection h with h; subst h; exact he
      · cases h
    · cases h
  | join t y =>
    simp only [step] at h
    split at h
    · split at h
      · split at h <;> (injection h with h; subst h; exact List.mem_cons_of_mem _ he)
      · cases h
    · cases h
  | detach t y =>
    simp only [step] at h
    split at h
    · split at h
      · split at h <;> (injection h with h; subst h; exact List.mem_cons_of_mem _ he)
      · cases h
    · cases h
  | id t y =>
    simp only [step] at h
    split at h
    · split at h
      · split at h
        · injection h with h; subst h; exact List.mem_cons_of_mem _ he
        · split at h <;> (injection h with h; subst h; exact List.mem_cons_of_mem _ he)
      · cases h
    · cases h
  | intr t =>
    simp only [step] at h
    split at h
    · injection h with h; subst h; exact he
    · cases h
  | wake t j =>
    simp only [step] at h
    split at h
    · split at h
      · split at h
        · split at h
          · injection h with h; subst h; exact he
          · cases h
        · split at h
          · split at h
            · injection h with h; subst h; exact he
            · cases h
          · cases h
      · cases h
    · cases h
  | signal t =>
    simp only [step] at h
    split at h
    · split at h
      · cases h
      · split at h
        · cases h
        · cases h
        · cases h
        · split at h
          · injection h with h; subst h; exact List.mem_cons_of_mem _ he
          · injection h with h; subst h; exact he
    · cases h

theorem Steps.log_stays (X : Steps sig P st act) {e : Ev} {n : Nat} (he : e ∈ (st n).log) : ∀ m, n ≤ m → e ∈ (st m).log :=
  X.stays (Q := fun s => e ∈ s.log) he fun m x _ ha h => log_mono (X.next m x ha).2 h

theorem finished_rank {h : Inst} : Finished s h ↔ ∃ T, s.thr h = some T ∧ T.stage.rank ≤ 10 := by
  constructor
  · rintro ⟨T, h1, h2⟩
    exact ⟨T, h1, by cases hs : T.stage <;> simp [hs] at h2 <;> simp [Stage.rank]⟩
  · rintro ⟨T, h1, h2⟩
    exact ⟨T, h1, by cases hs : T.stage <;> simp [hs, Stage.rank] at h2 ⊢⟩

theorem Steps.finished_stays (X : Steps sig P st act) (hI : ∀ n, Inv w sig (st n)) {h : Inst} {n : Nat} (hf : Finished (st n) h) :
    ∀ m, n ≤ m → Finished (st m) h :=
  X.stays (Q := fun s => Finished s h) hf fun m x _ ha hf => by
    obtain ⟨T, q1, q2⟩ := finished_rank.mp hf
    obtain ⟨T', p1, p2⟩ := rank_step (hI m) q1 q2 (X.next m x ha).2
    exact finished_rank.mpr ⟨T', p1, Nat.le_trans p2 q2⟩

/-- Once a thread's `at_exit` functions are finished, its exit completes. -/
theorem Steps.finished_exits {h : Inst} (X : Steps sig P st act) (F : Fair sig st act) (hI : ∀ n, Inv (only h) sig (st n)) {n : Nat}
    (hf : Finished (st n) h) : ∃ m, n ≤ m ∧ Done (st m) h ∧ Ev.exited h ∈ (st m).log := by
  obtain ⟨T, hT, hr⟩ := finished_rank.mp hf
  obtain ⟨m, hm, hdone⟩ := exit_completes X F hI hT hr (Stop := fun _ => False) fun m _ => .inr fun T1 hT1 q1 q2 q3 => by
    have G := ((hI m).ok _ _ hT1).good
    rw [only_self] at G
    unfold CanStep
    cases hs : T1.stage <;> simp only [Good, hs, Live, Stuck, Aband, Lost, Over, Det, DetGone, Released, Pending] at G <;>
      simp [hs, Stage.rank] at q1 q2 q3 ⊢ <;> grind
  have hdone := hdone.resolve_left id
  obtain ⟨T', hT', hst⟩ := hdone
  exact ⟨m, hm, ⟨T', hT', hst⟩, ((hI m).ok _ _ hT').link.ex.mpr (by rw [hst]; trivial)⟩

theorem Steps.thread_exits {h : Inst} (X : Steps sig P st act) (F : Fair sig st act) (hI : ∀ n, Inv (only h) sig (st n)) {n : Nat}
    (hd : act n = some (.dtorsDone h)) : ∃ m, n ≤ m ∧ Done (st m) h ∧ Ev.exited h ∈ (st m).log := by
  have hs := (X.next n _ hd).2
  have hfin : ∃ T, (st (n + 1)).thr h = some T ∧ T.stage.rank ≤ 10 := by
    simp only [step] at hs
    split at hs
    · next T hT =>
      split at hs
      · next v hst hc =>
        split at hs
        · next hv =>
          obtain ⟨r, hr, -⟩ := (((hI n).ok _ _ hT).good.user_rec (by rw [hst]; trivial)).resolve_left (by simp [only])
          rw [hr] at hv; cases hv
        · injection hs with hs
          rw [← hs]
          exact ⟨_, modThr_same hT, by simp [Stage.rank]⟩
      · cases hs
    · cases hs
  obtain ⟨m, hm, q⟩ := X.finished_exits F hI (finished_rank.mpr hfin)
  exact ⟨m, by omega, q⟩

/-- **C61 (threads exit; for a thread `h` none of whose waiters gets a stray wake-up, on every fair schedule).** When `h`'s `at_exit` functions
have finished, its exit comes to an end: it makes its `exit` system call, and the kernel completes it. -/
theorem C61_thread_exits_partial {h : Inst} (X : IsExec sig (OrderlyFor h sig) st act) (F : Fair sig st act) {n : Nat}
    (hd : act n = some (.dtorsDone h)) : ∃ m, n ≤ m ∧ Done (st m) h ∧ Ev.exited h ∈ (st m).log :=
  X.toSteps.thread_exits F (fun n => (X.reach n).inv) hd

theorem Steps.join_returns {j h : Inst} (X : Steps sig P st act) (F : Fair sig st act) (hI : ∀ n, Inv (only j) sig (st n))
    (hN : ∀ n H, (st n).thr h = some H → H.forked = false) {n : Nat}
    (hj : act n = some (.join j h)) (hf : ∃ m, Finished (st m) h) :
    ∃ m v, n < m ∧ Ev.joined j h v ∈ (st m).log ∧ ¬ Mapped (st m) h := by
  have hs := (X.next n _ hj).2
  have hcall : ∃ c, (st (n + 1)).call j = some c ∧ c.target = h ∧ c.kind = .join := by
    simp only [step] at hs
    split at hs
    · next T H hT hH =>
      split at hs
      · next hu =>
        split at hs
        · next hv =>
          obtain ⟨r, hr, -⟩ := (((hI n).ok _ _ hT).good.user_rec (inUser_iff hu.1).2).resolve_left (by simp [only])
          rw [hr] at hv; cases hv
        · injection hs with hs
          rw [← hs]
          exact ⟨.load .join H.addr h, by simp [State.setCall, State.setCons, State.ev], rfl, rfl⟩
      · cases hs
    · cases hs
  obtain ⟨c, h1, h2, h3⟩ := hcall
  obtain ⟨m, hm, v, hv⟩ := call_returns X F hI hN (only_self j) h1 h2 h3 fun _ => by
    obtain ⟨i, hi⟩ := hf
    obtain ⟨T, hT⟩ := finished_rank.mp hi
    exact ⟨i, T, hT⟩
  exact ⟨m, v, by omega, hv, ((hI m).noLeak (.inl ⟨j, v, hv⟩)).2⟩

/-- **C61 (`join` returns; for a caller `j` none of whose own waiters gets a stray wake-up, on every fair schedule).** A call of `join(h)` returns if
`h` ever finishes, before or after the call, however often the wait is interrupted by signals; and then `h`'s memory is unmapped. -/
theorem C61_join_returns_partial {j h : Inst} (X : IsExec sig (OrderlyFor j sig) st act) (F : Fair sig st act) {n : Nat}
    (hj : act n = some (.join j h)) (hf : ∃ m, Finished (st m) h) :
    ∃ m v, n < m ∧ Ev.joined j h v ∈ (st m).log ∧ ¬ Mapped (st m) h :=
  X.toSteps.join_returns F (fun n => (X.reach n).inv) (fun n => (reach_noFork (X.reach n)).1 h) hj hf

theorem Steps.detach_returns {j h : Inst} (X : Steps sig P st act) (F : Fair sig st act) (hI : ∀ n, Inv (only j) sig (st n))
    (hN : ∀ n H, (st n).thr h = some H → H.forked = false) {n : Nat}
    (hj : act n = some (.detach j h)) : ∃ m, n < m ∧ Ev.detachDone j h ∈ (st m).log := by
  have hs := (X.next n _ hj).2
  have hcall : ∃ c, (st (n + 1)).call j = some c ∧ c.target = h ∧ c.kind = .detach := by
    simp only [step] at hs
    split at hs
    · next T H hT hH =>
      split at hs
      · next hu =>
        split at hs
        · next hv =>
          obtain ⟨r, hr, -⟩ := (((hI n).ok _ _ hT).good.user_rec (inUser_iff hu.1).2).resolve_left (by simp [only])
          rw [hr] at hv; cases hv
        · injection hs with hs
          rw [← hs]
          exact ⟨.swap H.addr h, by simp [State.setCall, State.setCons, State.ev], rfl, rfl⟩
      · cases hs
    · cases hs
  obtain ⟨c, h1, h2, h3⟩ := hcall
  obtain ⟨m, hm, hv⟩ := call_returns X F hI hN (only_self j) h1 h2 h3 fun h => by cases h
  exact ⟨m, by omega, hv⟩

/-- **C61 (`detach` returns; for a caller `j` none of whose own waiters gets a stray wake-up, on every fair schedule).** A call of `detach(h)`
returns, whatever `h` does: if `h` is still running it does not wait for it. -/
theorem C61_detach_returns_partial {j h : Inst} (X : IsExec sig (OrderlyFor j sig) st act) (F : Fair sig st act) {n : Nat}
    (hj : act n = some (.detach j h)) : ∃ m, n < m ∧ Ev.detachDone j h ∈ (st m).log :=
  X.toSteps.detach_returns F (fun n => (X.reach n).inv) (fun n => (reach_noFork (X.reach n)).1 h) hj

theorem Steps.detached_released {d h : Inst} (X : Steps sig P st act) (F : Fair sig st act) (hI : ∀ n, Inv (fun _ => true) sig (st n)) {n n' : Nat}
    (hdet : Ev.detachDone d h ∈ (st n).log) (hf : Finished (st n') h) :
    ∃ m, (∃ j, Ev.unmap h j ∈ (st m).log) ∧ ¬ Mapped (st m) h := by
  obtain ⟨T, hT, hr⟩ := finished_rank.mp (X.finished_stays hI hf (max n n') (Nat.le_max_right _ _))
  have hdet' : ∀ m, max n n' ≤ m → Ev.detachDone d h ∈ (st m).log := fun m hm =>
    X.log_stays hdet m (Nat.le_trans (Nat.le_max_left _ _) hm)
  obtain ⟨m, hm, hd⟩ := exit_completes X F hI hT hr (Stop := fun m => (st m).cons h = some (d, .detach, .freed)) fun m hm => by
    obtain ⟨T1, hT1, -⟩ := finished_rank.mp (X.finished_stays hI hf m (Nat.le_trans (Nat.le_max_right _ _) hm))
    rcases (((hI m).ok _ _ hT1).link.dd d).mp (hdet' m hm) with hc | hc
    · refine .inr fun T2 hT2 q1 q2 q3 => ?_
      have G := ((hI m).ok _ _ hT2).good
      rw [hc] at G
      unfold CanStep
      cases hs : T2.stage <;> simp only [Good, hs, Live, Stuck, Aband, Lost, Over, Det, DetGone, Released, Pending] at G <;>
        simp [hs, Stage.rank] at q1 q2 q3 G ⊢ <;> grind
    · exact .inl hc
  refine ⟨m, ?_⟩
  rcases hd with hc | ⟨T1, hT1, hst⟩
  · obtain ⟨T1, hT1, -⟩ := finished_rank.mp (X.finished_stays hI hf m (Nat.le_trans (Nat.le_max_right _ _) hm))
    have O := (hI m).ok _ _ hT1
    have G := O.good
    rw [hc] at G
    have hv : (st m).view T1.addr h = none := by
      cases hs : T1.stage <;> simp only [Good, hs, Live, Stuck, Aband, Lost, Over, Det, DetGone, Released, Pending] at G <;>
        simp at G <;> grind
    exact ⟨O.link.um.mpr hv, fun hM => (mapped_iff (hI m) hT1).mp hM hv⟩
  · exact (hI m).noLeak (.inr ⟨⟨d, hdet' m hm⟩, ((hI m).ok _ _ hT1).link.ex.mpr (by rw [hst]; trivial)⟩)

/-- **C61 (detached threads clean up; on every fair schedule, stray wake-ups and late signals included).** When a thread was detached and finishes
(in either order), its memory is unmapped: nobody has to do anything more about it. -/
theorem C61_detached_released {d h : Inst} (X : IsExec sig Any st act) (F : Fair sig st act) {n n' : Nat}
    (hdet : Ev.detachDone d h ∈ (st n).log) (hf : Finished (st n') h) :
    ∃ m, (∃ j, Ev.unmap h j ∈ (st m).log) ∧ ¬ Mapped (st m) h :=
  X.toSteps.detached_released F (fun n => (X.reach n).any) hdet hf

/-! ### Concrete infinite executions: a list of actions, then either rest or the same action again and again -/

/-- Run `xs`, insisting on `p`. -/
def runP (p : State → Action → Bool) (s : State) : List Action → Option State
  | [] => some s
  | x :: xs => if p s x then (step true s x).bind (runP p · xs) else none

def tailStep (y : Option Action) (s : State) : State :=
  match y with
  | none => s
  | some a => (step true s a).getD s

/-- The states. -/
def follow (y : Option Action) : State → List Action → Nat → State
  | s, _, 0 => s
  | s, [], n + 1 => follow y (tailStep y s) [] n
  | s, x :: xs, n + 1 => follow y ((step true s x).getD s) xs n

/-- The actions. -/
def followAct (y : Option Action) (xs : List Action) (n : Nat) : Option Action :=
  match xs[n]? with
  | some x => some x
  | none => y

theorem follow_tail {y : Option Action} (Q : State → Prop) (hQ : ∀ s, Q s → Q (tailStep y s)) :
    ∀ n s, Q s → Q (follow y s [] n) ∧ follow y s [] (n + 1) = tailStep y (follow y s [] n)
  | 0, s, h => ⟨h, rfl⟩
  | n + 1, s, h => by
    obtain ⟨h1, h2⟩ := follow_tail Q hQ n (tailStep y s) (hQ s h)
    exact ⟨h1, h2⟩

theorem follow_list {p : State → Action → Bool} {y : Option Action} (xs : List Action) : ∀ {s s' : State}, runP p s xs = some s' →
    (∀ n x, xs[n]? = some x → p (follow y s xs n) x = true ∧ step true (follow y s xs n) x = some (follow y s xs (n + 1))) ∧
    ∀ m, follow y s xs (xs.length + m) = follow y s' [] m := by
  induction xs with
  | nil =>
    intro s s' h
    simp only [runP] at h
    injection h with h; subst h
    exact ⟨by simp, by simp⟩
  | cons x xs ih =>
    intro s s' h
    simp only [runP] at h
    split at h
    · next hp =>
      rw [Option.bind_eq_some_iff] at h
      obtain ⟨s1, h1, h2⟩ := h
      obtain ⟨a1, a2⟩ := ih h2
      constructor
      · intro n z hz
        cases n with
        | zero =>
          simp only [List.getElem?_cons_zero] at hz
          injection hz with hz; subst hz
          simp only [follow, h1, Option.getD_some]
          exact ⟨hp, trivial⟩
        | succ n =>
          simp only [List.getElem?_cons_succ] at hz
          have := a1 n z hz
          simp only [follow, h1, Option.getD_some]
          exact this
      · intro m
        rw [List.length_cons, Nat.add_right_comm]
        simp only [follow, h1, Option.getD_some]
        exact a2 m
    · cases h

theorem follow_steps {P : State → Action → Prop} {p : State → Action → Bool} (hp : ∀ s x, p s x = true → P s x) {y : Option Action}
    {s0 : State} {xs : List Action} {s' : State} (h : runP p s0 xs = some s') (Q : State → Prop) (h0 : Q s')
    (hQ : ∀ s, Q s → Q (tailStep y s)) (hy : ∀ s z, Q s → y = some z → P s z ∧ step true s z ≠ none) :
    Steps true P (follow y s0 xs) (followAct y xs) := by
  obtain ⟨a1, a2⟩ := follow_list (y := y) xs h
  have tail : ∀ n, xs[n]? = none → Q (follow y s0 xs n) ∧
      follow y s0 xs (n + 1) = tailStep y (follow y s0 xs n) := by
    intro n hn
    have hle : xs.length ≤ n := by simpa using hn
    have := follow_tail Q hQ (n - xs.length) s' h0
    rw [← a2, ← a2, ← Nat.add_assoc, show xs.length + (n - xs.length) = n by omega] at this
    exact this
  refine ⟨fun n hn => ?_, fun n x hx => ?_⟩
  · simp only [followAct] at hn
    split at hn
    · cases hn
    · next hx => rw [(tail n hx).2, hn]; rfl
  · simp only [followAct] at hx
    split at hx
    · next z hz =>
      injection hx with hx; subst hx
      obtain ⟨q1, q2⟩ := a1 n z hz
      exact ⟨hp _ _ q1, q2⟩
    · next hz =>
      obtain ⟨q1, q2⟩ := tail n hz
      subst hx
      obtain ⟨r1, r2⟩ := hy _ _ q1 rfl
      refine ⟨r1, ?_⟩
      rw [q2]
      simp only [tailStep]
      cases hs : step true (follow (some x) s0 xs n) x with
      | none => exact absurd hs r2
      | some s1 => rfl

theorem follow_exec {P : State → Action → Prop} {p : State → Action → Bool} (hp : ∀ s x, p s x = true → P s x) {y : Option Action}
    {a tid : Nat} (ht : tid ≠ 0) {xs : List Action} {s' : State} (h : runP p (init a tid) xs = some s') (Q : State → Prop) (h0 : Q s')
    (hQ : ∀ s, Q s → Q (tailStep y s)) (hy : ∀ s z, Q s → y = some z → P s z ∧ step true s z ≠ none) :
    IsExec true P (follow y (init a tid) xs) (followAct y xs) :=
  ⟨follow_steps hp h Q h0 hQ hy, ⟨a, tid, ht, by cases xs <;> rfl⟩⟩

/-- Nothing is left to do, except perhaps for thread `x`. -/
def quiet (s : State) (x : Option Inst) : Bool :=
  (List.range s.next).all fun t =>
    (decide (x = some t) || (step true s (.step t)).isNone) &&
      (match s.thr t with | some T => decide (T.stage ≠ .kWake) | none => true)

theorem quiet_step (I : Inv w true s) {x : Option Inst} (h : quiet s x = true) (t : Inst) (hx : x ≠ some t) :
    step true s (.step t) = none := by
  by_cases ht : t < s.next
  · have := all_range h ht
    simp only [Bool.and_eq_true, Bool.or_eq_true, decide_eq_true_eq, hx, false_or] at this
    simpa using this.1
  · have : s.thr t = none := by
      cases hT : s.thr t with
      | none => rfl
      | some T => exact absurd (I.lt t T hT) ht
    simp [step, this]

theorem quiet_wake (I : Inv w true s) {x : Option Inst} (h : quiet s x = true) (t : Inst) (i : Option Inst) :
    step true s (.wake t i) = none := by
  cases hT : s.thr t with
  | none => simp [step, hT]
  | some T =>
    have := all_range h (I.lt t T hT)
    simp only [hT, Bool.and_eq_true, decide_eq_true_eq] at this
    simp [step, hT, this.2]

/-- A list of actions that comes to rest, and rest: a fair execution. -/
theorem rest_steps {P : State → Action → Prop} {p : State → Action → Bool} (hp : ∀ s x, p s x = true → P s x)
    {s0 s' : State} {xs : List Action} (h1 : runP p s0 xs = some s') (h2 : quiet s' none = true) (I : Inv w true s') :
    Steps true P (follow none s0 xs) (followAct none xs) ∧ Fair true (follow none s0 xs) (followAct none xs) := by
  have X := follow_steps hp (y := none) h1 (fun s => s = s') rfl (fun s hs => hs) (fun s z _ h => by cases h)
  have tl : ∀ m, xs.length ≤ m → follow none s0 xs m = s' := by
    intro m hm
    have h := (follow_list (y := none) xs h1).2 (m - xs.length)
    rw [show xs.length + (m - xs.length) = m by omega] at h
    rw [h]
    exact (follow_tail (y := none) (fun s => s = s') (fun _ h => h) _ s' rfl).1
  refine ⟨X, fun t n => ⟨max n xs.length, Nat.le_max_left _ _, .inr ?_⟩, fun t n => ⟨max n xs.length, Nat.le_max_left _ _, .inr fun i => ?_⟩⟩
  · rw [tl _ (Nat.le_max_right _ _)]; exact quiet_step I h2 t (by simp)
  · rw [tl _ (Nat.le_max_right _ _)]; exact quiet_wake I h2 t i

theorem rest_exec {P : State → Action → Prop} {p : State → Action → Bool} (hp : ∀ s x, p s x = true → P s x)
    {a tid : Nat} (ht : tid ≠ 0) {xs : List Action} (h : (runP p (init a tid) xs).map (quiet · none) = some true) :
    IsExec true P (follow none (init a tid) xs) (followAct none xs) ∧ Fair true (follow none (init a tid) xs) (followAct none xs) := by
  rw [Option.map_eq_some_iff] at h
  obtain ⟨s', h1, h2⟩ := h
  have X := follow_exec hp (y := none) ht h1 (fun s => s = s') rfl (fun s hs => hs) (fun s z _ h => by cases h)
  have I : Inv (fun _ => true) true s' := by
    have := (X.reach xs.length).any
    rwa [← Nat.add_zero xs.length, (follow_list xs h1).2] at this
  exact ⟨X, (rest_steps hp h1 h2 I).2⟩

/-- `orderlyRun` brought to rest. -/
def restRun : List Action := orderlyRun ++ [.wake 3 none]

/-- A fair execution, without stray wake-ups, in which `join` sleeps, is interrupted and returns; a `detach` waits for the end of an exiting
thread; another detaches a running thread, which frees itself: all the theorems apply to it. -/
example : ∃ st act, IsExec true (Orderly true) st act ∧ Fair true st act ∧
    (∃ m, Done (st m) 1 ∧ Ev.exited 1 ∈ (st m).log) ∧ (∃ m v, Ev.joined 0 1 v ∈ (st m).log ∧ ¬ Mapped (st m) 1) ∧
    (∃ m, Ev.detachDone 1 2 ∈ (st m).log) ∧ (∃ m, Ev.detachDone 0 3 ∈ (st m).log) ∧ (∃ m, ¬ Mapped (st m) 2) := by
  obtain ⟨X, F⟩ := rest_exec (P := Orderly true) (p := fun s x => decide (¬ Stray s x)) (fun s x h => ⟨by simpa using h, .inl rfl⟩)
    (a := 100) (tid := 1) (by decide) (xs := restRun) (by decide)
  have weaken : ∀ h : Inst, IsExec true (OrderlyFor h true) (follow none (init 100 1) restRun) (followAct none restRun) :=
    fun h => ⟨⟨X.idle, fun n x hx => ⟨⟨fun hs => (X.next n x hx).1.1 (stray_of hs), .inl rfl⟩, (X.next n x hx).2⟩⟩, X.start⟩
  have any : IsExec true Any (follow none (init 100 1) restRun) (followAct none restRun) :=
    ⟨⟨X.idle, fun n x hx => ⟨trivial, (X.next n x hx).2⟩⟩, X.start⟩
  obtain ⟨m1, -, d1, e1⟩ := C61_thread_exits_partial (weaken 1) F (n := 14) (h := 1) rfl
  obtain ⟨m2, -, d2, e2⟩ := C61_thread_exits_partial (weaken 2) F (n := 41) (h := 2) rfl
  obtain ⟨m3, v, -, j1, j2⟩ := C61_join_returns_partial (weaken 0) F (n := 1) (j := 0) (h := 1) rfl
    ⟨m1, by obtain ⟨T, h1, h2⟩ := d1; exact ⟨T, h1, by rw [h2]; trivial⟩⟩
  obtain ⟨m4, -, q4⟩ := C61_detach_returns_partial (weaken 1) F (n := 11) (j := 1) (h := 2) rfl
  obtain ⟨m5, -, q5⟩ := C61_detach_returns_partial (weaken 0) F (n := 30) (j := 0) (h := 3) rfl
  obtain ⟨m6, -, q6⟩ := C61_detached_released any F q4 (n' := m2) (by obtain ⟨T, h1, h2⟩ := d2; exact ⟨T, h1, by rw [h2]; trivial⟩)
  exact ⟨_, _, X, F, ⟨m1, d1, e1⟩, ⟨m3, v, j1, j2⟩, ⟨m4, q4⟩, ⟨m5, q5⟩, ⟨m6, q6⟩⟩

/-! ### the code does not get there after a stray wake-up -/

/-- As `strayRun`, but thread 2 has finished when main, woken too early, frees its memory. -/
def strayExit : List Action :=
  [ .create 0 200 2, .step 1, .ret 1 5, .dtorsDone 1, .step 1, .step 1, .step 1, .step 1,
    .join 0 1, .step 0, .step 0, .step 0, .step 0, .step 0,
    .create 0 200 3, .step 2, .ret 2 7, .dtorsDone 2, .join 0 2, .step 0, .step 0,
    .wake 1 (some 0), .step 0, .step 0, .step 0, .step 0 ]

/-- **C61 is false** after a stray wake-up: there is a fair execution in which a thread finishes but never exits: its memory is gone, and each
attempt to go on is an access to it. -/
theorem C61_false : ∃ st act n, IsExec true Any st act ∧ Fair true st act ∧ act n = some (.dtorsDone 2) ∧
    ∀ m, ¬ Done (st m) 2 ∧ Ev.exited 2 ∉ (st m).log := by
  let p : State → Action → Bool := fun _ _ => true
  have h : ((runP p (init 100 1) strayExit).map fun s => (s.next, (s.thr 0).map (·.stage), (s.thr 0).bind (s.view ·.addr 0) |>.isSome, s.call 0,
      (s.thr 1).map (·.stage), (s.thr 2).map (·.stage), (s.thr 2).bind (s.view ·.addr 2))) =
      some (3, some .body, true, none, some .dead, some (.cas 7), none) := by rfl
  rw [Option.map_eq_some_iff] at h
  obtain ⟨s', h1, h2⟩ := h
  simp only [Prod.mk.injEq, Option.map_eq_some_iff] at h2
  obtain ⟨hnext, ⟨T0, hT0, hst0⟩, hv0, hc0, ⟨T1, hT1, hst1⟩, ⟨T, hT, hst⟩, hv⟩ := h2
  rw [hT0, Option.bind_some, Option.isSome_iff_exists] at hv0
  rw [hT, Option.bind_some] at hv
  obtain ⟨r0, hv0⟩ := hv0
  -- everything but the log stays
  let Q : State → Prop := fun s => s.recs = s'.recs ∧ s.thr = s'.thr ∧ s.call = s'.call ∧ s.next = s'.next
  have hstep : ∀ s, Q s → step true s (.step 2) = some (s.faulted 2 2) := by
    rintro s ⟨q1, q2, q3, q4⟩
    have hv' : s.view T.addr 2 = none := by rw [← hv]; simp only [State.view, q1]
    simp [step, q2, hT, hst, hv']
  have hQ : ∀ s, Q s → Q (tailStep (some (.step 2)) s) := by
    intro s q
    simp only [tailStep, hstep s q, Option.getD_some]
    exact q
  have X := follow_exec (P := Any) (p := p) (fun _ _ _ => trivial) (y := some (.step 2)) (a := 100) (tid := 1) (by decide) h1 Q
    ⟨rfl, rfl, rfl, rfl⟩ hQ (fun s z q hz => ⟨trivial, by injection hz with hz; subst hz; rw [hstep s q]; simp⟩)
  have I : Inv (fun _ => true) true s' := by
    have := (X.reach strayExit.length).any
    rwa [← Nat.add_zero strayExit.length, (follow_list strayExit h1).2] at this
  have tl : ∀ m, strayExit.length ≤ m → Q (follow (some (.step 2)) (init 100 1) strayExit m) := by
    intro m hm
    have h := (follow_list (y := some (.step 2)) strayExit h1).2 (m - strayExit.length)
    rw [show strayExit.length + (m - strayExit.length) = m by omega] at h
    rw [h]
    exact (follow_tail Q hQ _ s' ⟨rfl, rfl, rfl, rfl⟩).1
  have last : ∀ m, strayExit.length ≤ m → ¬ Done (follow (some (.step 2)) (init 100 1) strayExit m) 2 ∧
      Ev.exited 2 ∉ (follow (some (.step 2)) (init 100 1) strayExit m).log := by
    intro m hm
    obtain ⟨q1, q2, q3, q4⟩ := tl m hm
    rw [← q2] at hT
    refine ⟨?_, fun he => ?_⟩
    · rintro ⟨T', h1, h2⟩
      rw [hT] at h1; injection h1 with h1; subst h1
      rw [hst] at h2; cases h2
    · have := ((X.reach m).any.ok _ _ hT).link.ex.mp he
      rw [hst] at this; exact this
  refine ⟨_, _, 17, X, ⟨fun t n => ⟨max n strayExit.length, Nat.le_max_left _ _, ?_⟩,
    fun t n => ⟨max n strayExit.length, Nat.le_max_left _ _, .inr fun i => ?_⟩⟩, rfl, fun m => ⟨fun hd => ?_, fun he => ?_⟩⟩
  · obtain ⟨q1, q2, q3, q4⟩ := tl _ (Nat.le_max_right n strayExit.length)
    match t with
    | 0 =>
      right
      have hv' : (follow (some (.step 2)) (init 100 1) strayExit (max n strayExit.length)).view T0.addr 0 = some r0 := by
        rw [← hv0]; simp only [State.view, q1]
      simp [step, q2, q3, hT0, hst0, hv', hc0, ownStep]
    | 1 => right; simp [step, q2, hT1, hst1]
    | 2 =>
      left
      simp only [followAct]
      rw [List.getElem?_eq_none (Nat.le_max_right _ _)]
    | t + 3 =>
      right
      have : s'.thr (t + 3) = none := by
        cases hT : s'.thr (t + 3) with
        | none => rfl
        | some T => have := I.lt _ T hT; rw [hnext] at this; exact absurd this (by simp)
      simp [step, q2, this]
  · obtain ⟨q1, q2, q3, q4⟩ := tl _ (Nat.le_max_right n strayExit.length)
    match t with
    | 0 => simp [step, q2, hT0, hst0]
    | 1 => simp [step, q2, hT1, hst1]
    | 2 => simp [step, q2, hT, hst]
    | t + 3 =>
      have : s'.thr (t + 3) = none := by
        cases hT : s'.thr (t + 3) with
        | none => rfl
        | some T => have := I.lt _ T hT; rw [hnext] at this; exact absurd this (by simp)
      simp [step, q2, this]
  · exact (last (max m strayExit.length) (Nat.le_max_right _ _)).1 (X.stays (Q := fun s => Done s 2) hd
      (fun i x _ ha hd => done_step (X.reach i).any hd (X.next i x ha).2) _ (Nat.le_max_left _ _))
  · exact (last (max m strayExit.length) (Nat.le_max_right _ _)).2 (X.log_stays he _ (Nat.le_max_left _ _))

end Origin.Life
