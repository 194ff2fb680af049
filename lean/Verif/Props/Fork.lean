import Verif.Proof.Fork
import Verif.Props.Fair
/-!
# C66: threads in the child of a `fork`

Everything C20–C27 and C61 say about threads is also true in a process that was made by `fork` — by a fork of a fork of … — with
`set_current_id_after_a_fork` called in the child, with one exception: the thread that called `fork`, if the `fork` wrapper did not ask the kernel for
`CLONE_CHILD_CLEARTID`.  `ReachF sig P f s`: `s` is a state of such a process, and `f` is that exceptional thread, if there is one.
-/

namespace Origin.Life

variable {w : Inst → Bool} {sig : Bool} {s s' : State} {f : Option Inst}
variable {P : State → Action → Prop} {st : Nat → State} {act : Nat → Option Action}

theorem ReachF.inv {h : Inst} (R : ReachF sig (OrderlyFor h sig) f s) : Inv (only h) sig s :=
  reachF_inv
    (fun _ _ hp i => by
      by_cases hi : i = h
      · subst hi; exact .inr hp.1
      · exact .inl (by simp [only, hi]))
    (fun _ _ hp i => by
      by_cases hi : i = h
      · subst hi; exact .inr hp.2
      · exact .inl (by simp [only, hi])) R

/-- A process that never forked is one of them. -/
theorem Reach.toF (R : Reach sig P s) : ReachF sig P none s := by
  induction R with
  | init a tid ht => exact .init a tid ht
  | step _ hp hs ih => exact .step ih hp hs

theorem Steps.reachF (X : Steps sig P st act) (R : ReachF sig P f (st 0)) : ∀ n, ReachF sig P f (st n)
  | 0 => R
  | n + 1 => by
    cases ha : act n with
    | none => rw [X.idle n ha]; exact X.reachF R n
    | some x => exact .step (X.reachF R n) (X.next n x ha).1 (X.next n x ha).2

/-! ## what a fork does -/

/-- **C66 (the child).** After a `fork` by `t` (and `set_current_id_after_a_fork`), `t` is the only thread of the child, its memory — at the same
address — the only mapping of a thread; its id is the new one, and `current_id` returns it; it is detached if it was detached before. -/
theorem C66_child {t : Inst} {tid : Nat} {cl : Bool} (R : ReachF sig P f s) (h : forkChild s t tid cl = some s') :
    (∃ T T', s.thr t = some T ∧ s'.thr t = some T' ∧ T'.addr = T.addr ∧ T'.tid = tid ∧ T'.stage = T.stage) ∧
    (∀ h, h ≠ t → s'.thr h = none ∧ ¬ Mapped s' h) ∧ Mapped s' t ∧ (∀ j, s'.call j = none) ∧
    step sig s' (.id t t) = some (s'.ev (.idRes t t (some tid))) ∧
    ((∃ j, s'.cons t = some (j, .detach, .released)) ↔ ∃ j, s.cons t = some (j, .detach, .released)) := by
  have I' : Inv (fun _ => true) sig s' := fork_inv (reachF_any R) h
  obtain ⟨T, r, hT, hu, h0, hr, e1, e2, e3, e4, hc⟩ := forkChild_spec h
  have hT' : s'.thr t = some { T with tid := tid, clear := cl, forked := !cl } := by simp [e2]
  have hm : Mapped s' t := ⟨T.addr, { r with tid := tid }, by simp [e1], (view_some hr).2⟩
  refine ⟨⟨T, _, hT, hT', rfl, rfl, rfl⟩, fun h hne => ⟨by simp [e2, hne], ?_⟩, hm, fun j => by simp [e3], ?_, ?_⟩
  · rintro ⟨a, r', q1, q2⟩
    obtain ⟨H, q3, -⟩ := I'.recOk a r' q1
    rw [q2, e2] at q3
    simp [hne] at q3
  · refine I'.currentId hT' ?_ hm
    have : s'.call t = none := by rw [e3]
    unfold State.inUser
    rw [this]
    cases hs : T.stage <;> simp [hs, Stage.user] at hu ⊢
  · rcases hc with ⟨j, q1, q2, -⟩ | ⟨q1, q2, -⟩
    · exact ⟨fun _ => ⟨j, q1⟩, fun _ => ⟨j, by simp [q2]⟩⟩
    · exact ⟨fun ⟨j, q⟩ => by simp [q2] at q, fun ⟨j, q⟩ => absurd q (q1 j)⟩

/-! ## safety -/

/-- **C66 (`join`, as C20 and C21; for a thread `h` none of whose waiters got a stray wake-up since the last fork).** Whenever `join(h)` returned `v`,
`h`'s function had returned exactly `v` and `h` had made its last step. -/
theorem C66_join_partial {h : Inst} (R : ReachF sig (OrderlyFor h sig) f s) (j : Inst) (v : Nat) :
    Whenever s.log (.joined j h v) (fun old => Ev.returned h v ∈ old ∧ Ev.exited h ∈ old) ∧
    (Ev.joined j h v ∈ s.log → ∀ v', Ev.returned h v' ∈ s.log → v' = v) :=
  ⟨fun newer older hl => ⟨(R.inv.joinValue (only_self h) j v).1 newer older hl, (R.inv.joinAfterExit (only_self h) j).2 v newer older hl⟩,
    (R.inv.joinValue (only_self h) j v).2⟩

/-- **C66 (memory, as C22 and C25).** Each thread's memory is unmapped at most once, only by itself, detached, before its last instruction, or by the thread that
called `join` or `detach` on it; and after its `join`, or its `detach` and its exit, it has been. -/
theorem C66_freed_once (R : ReachF sig P f s) (h : Inst) :
    unmaps h s.log ≤ 1 ∧
    (∀ j, Whenever s.log (.unmap h j) (fun old =>
      (∀ j', Ev.unmap h j' ∉ old) ∧
      ((j = h ∧ Ev.exited h ∉ old ∧ ∃ d, Ev.detachDone d h ∈ old) ∨ Ev.joinCall j h ∈ old ∨ Ev.detachCall j h ∈ old))) ∧
    ((∃ j v, Ev.joined j h v ∈ s.log) ∨ (∃ j, Ev.detachDone j h ∈ s.log) ∧ Ev.exited h ∈ s.log →
      (∃ j, Ev.unmap h j ∈ s.log) ∧ ¬ Mapped s h) :=
  ⟨((reachF_any R).freedOnce h).1, ((reachF_any R).freedOnce h).2, fun hd => (reachF_any R).noLeak hd⟩

/-- **C66 (memory, as C23; for a thread `h` none of whose waiters got a stray wake-up since the last fork, and, without the `signal` feature,
without a late signal).** Nobody touches `h`'s memory when it is unmapped or has been mapped anew. -/
theorem C66_no_use_after_free_partial {h : Inst} (R : ReachF sig (OrderlyFor h sig) f s) (t : Inst) : Ev.fault t h ∉ s.log := by
  intro hm
  obtain ⟨old, h1, -⟩ := trace_mem R.inv.trace hm
  have := h1.2
  rw [only_self] at this; cases this

/-- **C66 (ids, as C26 and C27).** A thread in user code gets its own id from `current_id`; the ids of two threads the kernel still knows are different, and so are
the handles of two threads whose memory is mapped. -/
theorem C66_ids (R : ReachF sig P f s) {t : Inst} {T : Thr} (hT : s.thr t = some T) :
    (s.inUser t T = true → Mapped s t → step sig s (.id t t) = some (s.ev (.idRes t t (some T.tid)))) ∧
    ∀ t' T', s.thr t' = some T' → t ≠ t' →
      (Mapped s t → Mapped s t' → T.addr ≠ T'.addr) ∧ (¬ Done s t → ¬ Done s t' → T.tid ≠ T'.tid) :=
  ⟨(reachF_any R).currentId hT, fun _ _ hT' hne => (reachF_any R).distinct hT hT' hne⟩

/-- **C66 (`id` of another thread, as C26; not for the exceptional thread).** `id(h)` returned `h`'s id if the kernel had not processed `h`'s exit yet, and
`None` if it had; and the kernel does clear the id of a thread that was not detached. -/
theorem C66_id_partial (R : ReachF sig P f s) {h : Inst} (hf : f ≠ some h) (t : Inst) (r : Option Nat) :
    Whenever s.log (.idRes t h r) (fun old => ∃ p a tid, Ev.created p h a tid ∈ old ∧
      (Ev.cleared h ∉ old → r = some tid) ∧ (Ev.cleared h ∈ old → r = none)) ∧
    (Done s h → (∀ j, Ev.detachDone j h ∉ s.log) → Ev.cleared h ∈ s.log) := by
  have I := reachF_any R
  refine ⟨fun _ _ hl => trace_at I.trace hl, fun hd hj => ?_⟩
  obtain ⟨T, hT, hs⟩ := hd
  have O := I.ok h T hT
  have G := O.good
  have hnf : T.forked = false := by
    cases hq : T.forked
    · rfl
    · exact absurd (((reachF_forked R h T hT).1).mp hq) hf
  rw [O.link.cl, hs]
  simp only [Good, hs] at G
  rcases G with G | G | G
  · exact ⟨G.1, trivial⟩
  · obtain ⟨j, hc⟩ := G.1
    exact absurd ((O.link.dd j).mpr (.inl hc)) (hj j)
  · rw [G.1] at hnf; cases hnf

/-- **C66 (the waiter gets out, as C24; not for the exceptional thread).** Once the kernel has completed `h`'s exit, a thread in the middle of
`join(h)` or `detach(h)` is awake, and at most eight of its own steps take it to the end of the call. -/
theorem C66_call_completes_partial (R : ReachF sig P f s) {j h : Inst} (hf : f ≠ some h) {c : Call} (hc : s.call j = some c)
    (ht : c.target = h) (hd : Done s h) (hm : Mapped s j) :
    ∃ n s', n ≤ 8 ∧ run sig s (List.replicate n (.step j)) = some s' ∧ Ended s' j h := by
  refine (reachF_any R).callCompletes (fun H hH => ?_) hc ht hd hm
  cases hq : H.forked
  · rfl
  · exact absurd (((reachF_forked R h H hH).1).mp hq) hf

/-! ## liveness -/

theorem ReachF.notForked (R : ReachF sig P f s) {h : Inst} (hf : f ≠ some h) (H : Thr) (hH : s.thr h = some H) : H.forked = false := by
  cases hq : H.forked
  · rfl
  · exact absurd (((reachF_forked R h H hH).1).mp hq) hf

/-- **C66 (threads exit, as C61).** In the child, on every fair schedule: when `h`'s `at_exit` functions have finished, its exit comes to an end. -/
theorem C66_thread_exits_partial {h : Inst} (R : ReachF sig (OrderlyFor h sig) f (st 0)) (X : Steps sig (OrderlyFor h sig) st act) (F : Fair sig st act)
    {n : Nat} (hd : act n = some (.dtorsDone h)) : ∃ m, n ≤ m ∧ Done (st m) h ∧ Ev.exited h ∈ (st m).log :=
  X.thread_exits F (fun n => (X.reachF R n).inv) hd

/-- **C66 (`join` and `detach` return, as C61; not for the exceptional thread).** In the child, on every fair schedule: a call of `join(h)` returns if
`h` ever finishes, and then `h`'s memory is unmapped; a call of `detach(h)` returns whatever `h` does. -/
theorem C66_calls_return_partial {j h : Inst} (R : ReachF sig (OrderlyFor j sig) f (st 0)) (hf : f ≠ some h) (X : Steps sig (OrderlyFor j sig) st act)
    (F : Fair sig st act) {n : Nat} :
    (act n = some (.join j h) → (∃ m, Finished (st m) h) → ∃ m v, n < m ∧ Ev.joined j h v ∈ (st m).log ∧ ¬ Mapped (st m) h) ∧
    (act n = some (.detach j h) → ∃ m, n < m ∧ Ev.detachDone j h ∈ (st m).log) :=
  ⟨fun hj hfin => X.join_returns F (fun n => (X.reachF R n).inv) (fun n => (X.reachF R n).notForked hf) hj hfin,
    fun hj => X.detach_returns F (fun n => (X.reachF R n).inv) (fun n => (X.reachF R n).notForked hf) hj⟩

/-- **C66 (detached threads clean up, as C61).** In the child, on every fair schedule: when a thread was detached — also before the fork — and finishes, its memory is
unmapped.  This is true of the exceptional thread too. -/
theorem C66_detached_released {d h : Inst} (R : ReachF sig P f (st 0)) (X : Steps sig P st act) (F : Fair sig st act) {n n' : Nat}
    (hdet : Ev.detachDone d h ∈ (st n).log) (hf : Finished (st n') h) :
    ∃ m, (∃ j, Ev.unmap h j ∈ (st m).log) ∧ ¬ Mapped (st m) h :=
  X.detached_released F (fun n => reachF_any (X.reachF R n)) hdet hf

/-! ## the exceptional thread -/

theorem callStep_unmap {t h j : Inst} {r : Rec} {c : Call} (hs : callStep s t r c = some s') (hm : Ev.unmap h j ∈ s'.log) :
    Ev.unmap h j ∈ s.log ∨ (j = t ∧ ∃ k a v, c = .unmap k a h v) := by
  cases c <;> simp only [callStep] at hs <;> (try split at hs) <;> (try cases hs)
  case unmap k a x v =>
    cases k <;> simp [State.finish, State.setCall, State.setCons, State.setRec, State.ev] at hm <;>
      (rcases hm with ⟨rfl, rfl⟩ | hm
       · exact .inr ⟨rfl, _, _, _, rfl⟩
       · exact .inl hm)
  case drop.isFalse k a x v o ho =>
    left; cases k <;> simpa [State.finish, State.setCall, State.setCons, State.ev] using hm
  all_goals (left; simpa [State.setCall, State.setCons, State.setRec, State.ev] using hm)

/-- Who unmaps. -/
theorem step_unmap {x : Action} {h j : Inst} (hs : step sig s x = some s') (hm : Ev.unmap h j ∈ s'.log) :
    Ev.unmap h j ∈ s.log ∨ (∃ T, s.thr h = some T ∧ T.stage = .dUnmap) ∨ ∃ k a v, s.call j = some (.unmap k a h v) := by
  have old : ∀ {e : Ev}, Ev.unmap h j ∈ e :: s.log → (∀ y z, e ≠ .unmap y z) → Ev.unmap h j ∈ s.log := by
    intro e he hne
    rcases List.mem_cons.mp he with rfl | he
    · exact absurd rfl (hne h j)
    · exact he
  cases x with
  | step t =>
    simp only [step] at hs
    split at hs
    · next X hX =>
      split at hs
      · injection hs with hs; subst hs; exact .inl (old hm (by simp))
      · split at hs
        · split at hs <;> (injection hs with hs; subst hs; exact .inl (old hm (by simp)))
        · injection hs with hs; subst hs; exact .inl hm
      · cases hs
      · cases hs
      · split at hs
        · injection hs with hs; subst hs; exact .inl (old hm (by simp))
        · split at hs
          · next c hc =>
            split at hs
            · cases hs
            · split at hs
              · injection hs with hs; subst hs; exact .inl (old hm (by simp))
              · rcases callStep_unmap hs hm with q | ⟨rfl, k, a, v, q⟩
                · exact .inl q
                · exact .inr (.inr ⟨k, a, v, by rw [hc, q]⟩)
          · cases hX' : X.stage <;> simp only [ownStep, hX'] at hs <;> (try split at hs) <;> (try cases hs)
            case h_2.dUnmap.refl =>
              rcases List.mem_cons.mp hm with hm | hm
              · injection hm with q1 q2; subst q1
                exact .inr (.inl ⟨X, hX, hX'⟩)
              · exact .inl hm
            all_goals (left; simpa [State.setStage, State.modThr, State.setRec, State.ev] using hm)
    · cases hs
  | create t a tid =>
    simp only [step] at hs
    split at hs
    · split at hs
      · split at hs <;> (injection hs with hs; subst hs; exact .inl (old hm (by simp)))
      · cases hs
    · cases hs
  | ret t v =>
    simp only [step] at hs
    split at hs
    · split at hs
      · split at hs <;> (injection hs with hs; subst hs; exact .inl (old hm (by simp)))
      · cases hs
    · cases hs
  | dtorsDone t =>
    simp only [step] at hs
    split at hs
    · split at hs
      · split at hs
        · injection hs with hs; subst hs; exact .inl (old hm (by simp))
        · injection hs with hs; subst hs; exact .inl hm
      · cases hs
    · cases hs
  | join t y =>
    simp only [step] at hs
    split at hs
    · split at hs
      · split at hs <;> (injection hs with hs; subst hs; exact .inl (old hm (by simp)))
      · cases hs
    · cases hs
  | detach t y =>
    simp only [step] at hs
    split at hs
    · split at hs
      · split at hs <;> (injection hs with hs; subst hs; exact .inl (old hm (by simp)))
      · cases hs
    · cases hs
  | id t y =>
    simp only [step] at hs
    split at hs
    · split at hs
      · split at hs
        · injection hs with hs; subst hs; exact .inl (old hm (by simp))
        · split at hs <;> (injection hs with hs; subst hs; exact .inl (old hm (by simp)))
      · cases hs
    · cases hs
  | intr t =>
    simp only [step] at hs
    split at hs
    · injection hs with hs; subst hs; exact .inl hm
    · cases hs
  | wake t j =>
    simp only [step] at hs
    split at hs
    · split at hs
      · split at hs
        · split at hs
          · injection hs with hs; subst hs; exact .inl hm
          · cases hs
        · split at hs
          · split at hs
            · injection hs with hs; subst hs; exact .inl hm
            · cases hs
          · cases hs
      · cases hs
    · cases hs
  | signal t =>
    simp only [step] at hs
    split at hs
    · split at hs
      · cases hs
      · split at hs
        · cases hs
        · cases hs
        · cases hs
        · split at hs
          · injection hs with hs; subst hs; exact .inl (old hm (by simp))
          · injection hs with hs; subst hs; exact .inl hm
    · cases hs

/-- The exceptional thread, gone but for its memory, whose `detached` nobody will ever find anything but `ABANDONED` (or a waiting `detach`). -/
theorem cut_facts {t : Inst} (R : ReachF sig (OrderlyFor t sig) (some t) s) {T : Thr} (hT : s.thr t = some T) (hg : T.stage.gone)
    {r : Rec} (hr : s.view T.addr t = some r) :
    s.cons t = none ∨ (∃ j, s.cons t = some (j, .join, .waiting)) ∨ (∃ j, s.cons t = some (j, .detach, .start)) ∨
      ∃ j, s.cons t = some (j, .detach, .waiting) := by
  have G := (R.inv.ok t T hT).good
  have hcl := (reachF_forked R t T hT).2 rfl
  rw [only_self, hr] at G
  cases hs : T.stage <;> simp [hs, Stage.gone] at hg <;>
    simp only [Good, hs, Stuck, Aband, Lost, Over, DetGone, Released, Pending, hcl] at G <;> simp at G <;> grind

theorem cut_step {t : Inst} (R : ReachF sig (OrderlyFor t sig) (some t) s) {x : Action} (hx : OrderlyFor t sig s x) (hs : step sig s x = some s')
    (he : Ev.exited t ∈ s.log) (hm : Mapped s t) : Ev.exited t ∈ s'.log ∧ Mapped s' t := by
  have R' : ReachF sig (OrderlyFor t sig) (some t) s' := .step R hx hs
  have I := R.inv
  have I' := R'.inv
  obtain ⟨T, hT⟩ := I.logThr _ he
  have hT : s.thr t = some T := hT
  obtain ⟨T', hT', -⟩ := (step_forked I.lt hs).keep t T hT
  have he' := log_mono hs he
  refine ⟨he', ?_⟩
  rw [mapped_iff I' hT']
  intro hn
  have hv := (mapped_iff I hT).mp hm
  obtain ⟨r, hr⟩ := Option.ne_none_iff_exists'.mp hv
  have hg := (I.ok t T hT).link.ex.mp he
  obtain ⟨j, hj⟩ := (I'.ok t T' hT').link.um.mpr hn
  rcases step_unmap hs hj with q | ⟨T1, q1, q2⟩ | ⟨k, a, v, q⟩
  · exact hv ((I.ok t T hT).link.um.mp ⟨j, q⟩)
  · rw [hT] at q1; injection q1 with q1; subst q1
    rw [q2] at hg; exact hg
  · have hc := (I.callOk j _ q).cons
    simp only [Call.target, Call.phase] at hc
    rcases cut_facts R hT hg hr with q | ⟨_, q⟩ | ⟨_, q⟩ | ⟨_, q⟩ <;> rw [hc] at q <;> simp at q

/-- **C66 is false for a thread `t` that called `fork` through a wrapper without `CLONE_CHILD_CLEARTID`** (such as `rustix::runtime::kernel_fork`): in the
child the kernel has no word to clear when `t` exits.  `join(t)` never returns: not when `t` has finished, not on any schedule; if `t` exits without having
been detached, its memory is never unmapped, and `detach(t)` never returns either. -/
theorem C66_join_false {t : Inst} (R : ReachF sig (OrderlyFor t sig) (some t) (st 0)) (X : Steps sig (OrderlyFor t sig) st act) :
    (∀ n j v, Ev.joined j t v ∉ (st n).log) ∧
    ∀ n, Ev.exited t ∈ (st n).log → Mapped (st n) t → ∀ m, n ≤ m → Mapped (st m) t ∧ ∀ j, Ev.detachDone j t ∉ (st m).log := by
  have R' := X.reachF R
  constructor
  · intro n j v hj
    obtain ⟨T, hT⟩ := (R' n).inv.logThr _ hj
    have hT : (st n).thr t = some T := hT
    have O := (R' n).inv.ok t T hT
    have G := O.good
    have hcl := (reachF_forked (R' n) t T hT).2 rfl
    rw [only_self, O.link.jd j v hj] at G
    cases hs : T.stage <;>
      simp only [Good, hs, Live, Stuck, Aband, Lost, Over, Det, DetGone, Released, Pending, hcl] at G <;> simp at G
  · intro n he hm m hnm
    have key : Ev.exited t ∈ (st m).log ∧ Mapped (st m) t :=
      X.stays (Q := fun s => Ev.exited t ∈ s.log ∧ Mapped s t) ⟨he, hm⟩
        (fun i x _ ha q => cut_step (R' i) (X.next i x ha).1 (X.next i x ha).2 q.1 q.2) m hnm
    exact ⟨key.2, fun j hj => ((R' m).inv.noLeak (.inr ⟨⟨j, hj⟩, key.1⟩)).2 key.2⟩

/-- **C66 is false for that thread (`id`)**: the kernel never clears its id; `id(t)` is never `None`, also when `t` has exited and the kernel has given its
id to another thread or process. -/
theorem C66_id_false {t : Inst} (R : ReachF sig P (some t) s) : Ev.cleared t ∉ s.log ∧ ∀ j, Ev.idRes j t none ∉ s.log := by
  have I := reachF_any R
  have hcl : Ev.cleared t ∉ s.log := by
    intro hm
    obtain ⟨T, hT⟩ := I.logThr _ hm
    have hT : s.thr t = some T := hT
    have := ((I.ok t T hT).link.cl.mp hm).1
    rw [(reachF_forked R t T hT).2 rfl] at this; cases this
  refine ⟨hcl, fun j hj => ?_⟩
  obtain ⟨old, ⟨p, a, tid, -, h1, -⟩, h2⟩ := trace_mem I.trace hj
  have := h1 fun hc => hcl (h2 _ hc)
  cases this

/-! ### concrete processes -/

/-- Thread 1, not detached, forks; in the child it creates thread 2, returns 5 and exits, and thread 2 joins it. -/
def forkRun (cl : Bool) (rest : List Action) : Option State :=
  (run true (init 100 1) [.create 0 200 2, .step 1, .join 0 1, .step 0]).bind fun s =>
    (forkChild s 1 9 cl).bind fun s => run true s ([.id 1 1, .create 1 300 10, .step 2, .ret 1 5, .dtorsDone 1, .step 1, .step 1, .step 1, .step 1] ++ rest)

theorem reachF_run (xs : List Action) : ∀ {s s' : State}, ReachF sig Any f s → run sig s xs = some s' → ReachF sig Any f s' := by
  induction xs with
  | nil => intro s s' R h; simp [run] at h; subst h; exact R
  | cons x xs ih =>
    intro s s' R h
    simp only [run, Option.bind_eq_some_iff] at h
    obtain ⟨s1, h1, h2⟩ := h
    exact ih (.step R trivial h1) h2

theorem forkRun_reach {cl : Bool} {rest : List Action} (h : forkRun cl rest = some s) :
    ReachF true Any (if cl then none else some 1) s := by
  simp only [forkRun, Option.bind_eq_some_iff] at h
  obtain ⟨s1, h1, s2, h2, h3⟩ := h
  have R1 : ReachF true (fun _ _ => True) none s1 := reachF_run _ (.init 100 1 (by decide)) h1
  exact reachF_run _ (.fork R1 h2) h3

/-- With `CLONE_CHILD_CLEARTID` thread 2's `join` of the forker gets 5, and the memory is unmapped. -/
example : ∃ s, ReachF true Any none s ∧ Ev.idRes 1 1 (some 9) ∈ s.log ∧ Ev.joined 2 1 5 ∈ s.log ∧ Ev.unmap 1 2 ∈ s.log ∧ ¬ Mapped s 1 := by
  have h : ((forkRun true [.join 2 1, .wake 1 none, .step 2, .step 2, .step 2, .step 2, .step 2]).map fun s => decide (Ev.idRes 1 1 (some 9) ∈ s.log ∧ Ev.joined 2 1 5 ∈ s.log ∧ Ev.unmap 1 2 ∈ s.log)) = some true := by
    decide
  rw [Option.map_eq_some_iff] at h
  obtain ⟨s, h1, h2⟩ := h
  have R := forkRun_reach h1
  simp only [decide_eq_true_eq] at h2
  exact ⟨s, R, h2.1, h2.2.1, h2.2.2, ((C66_freed_once R 1).2.2 (.inl ⟨2, 5, h2.2.1⟩)).2⟩

/-- Without it the kernel completes thread 1's exit and thread 1 still has an id. -/
example : ∃ s, ReachF true Any (some 1) s ∧ Done s 1 ∧ Ev.exited 1 ∈ s.log ∧ Ev.idRes 2 1 (some 9) ∈ s.log ∧ Ev.cleared 1 ∉ s.log := by
  have h : ((forkRun false [.id 2 1]).map fun s => decide ((s.thr 1).map (·.stage) = some .dead ∧ Ev.exited 1 ∈ s.log ∧ Ev.idRes 2 1 (some 9) ∈ s.log)) = some true := by
    decide
  rw [Option.map_eq_some_iff] at h
  obtain ⟨s, h1, h2⟩ := h
  have R := forkRun_reach h1
  simp only [decide_eq_true_eq, Option.map_eq_some_iff] at h2
  exact ⟨s, R, h2.1, h2.2.1, h2.2.2, (C66_id_false R).1⟩

/-- The child of thread 1's fork. -/
def child (cl : Bool) : Option State :=
  (run true (init 100 1) [.create 0 200 2, .step 1, .join 0 1, .step 0]).bind fun s => forkChild s 1 9 cl

theorem child_reach {P : State → Action → Prop} {cl : Bool} (h : child cl = some s) : ReachF true P (if cl then none else some 1) s := by
  simp only [child, Option.bind_eq_some_iff] at h
  obtain ⟨s1, h1, h2⟩ := h
  exact .fork (reachF_run _ (.init 100 1 (by decide)) h1) h2

/-- In the child thread 1 creates thread 2 and exits; thread 2 creates thread 3 and calls `join` on thread 1; thread 3 creates thread 4, which detaches
thread 3 and itself, and they exit. -/
def childRun : List Action :=
  [ .create 1 300 10, .step 2, .create 2 400 11, .ret 1 5, .dtorsDone 1, .step 1, .step 1, .step 1, .step 1, .join 2 1, .step 2, .step 2,
    .step 3, .create 3 500 12, .step 4, .detach 4 3, .step 4, .ret 3 6, .dtorsDone 3, .step 3, .step 3, .step 3, .step 3, .step 3, .step 3,
    .step 3, .step 3, .detach 4 4, .step 4, .ret 4 6, .dtorsDone 4, .step 4, .step 4, .step 4, .step 4, .step 4, .step 4, .step 4, .step 4 ]

/-- Without: a fair execution in which thread 1's exit in the child is completed, thread 2's `join` of it never returns, and threads 3 and 4 clean up: the
theorems apply to it. -/
example : ∃ st act, ReachF true (OrderlyFor 1 true) (some 1) (st 0) ∧ Steps true (OrderlyFor 1 true) st act ∧ Fair true st act ∧
    (∃ n, act n = some (.join 2 1)) ∧ (∃ m, Done (st m) 1 ∧ Ev.exited 1 ∈ (st m).log) ∧ (∀ n j v, Ev.joined j 1 v ∉ (st n).log) ∧
    (∃ m, ∀ n, m ≤ n → Mapped (st n) 1) ∧ (∃ m, Ev.detachDone 4 3 ∈ (st m).log) ∧ ∃ m, ¬ Mapped (st m) 3 := by
  have h : ((child false).bind fun s => (runP (fun s x => decide (¬ Stray s x)) s childRun).map fun s => quiet s none &&
      decide (Ev.exited 1 ∈ s.log) && (s.view 200 1).isSome) = some true := by
    decide
  rw [Option.bind_eq_some_iff] at h
  obtain ⟨s0, h1, h⟩ := h
  rw [Option.map_eq_some_iff] at h
  obtain ⟨s', h2, h3⟩ := h
  simp only [Bool.and_eq_true, decide_eq_true_eq] at h3
  have R : ReachF true (OrderlyFor 1 true) (some 1) s0 := child_reach h1
  have Xs : ∀ h, Steps true (OrderlyFor h true) (follow none s0 childRun) (followAct none childRun) := fun h =>
    follow_steps (y := none) (fun s x hx => ⟨fun hs => (by simpa using hx : ¬ Stray s x) (stray_of hs), .inl rfl⟩) h2 (fun s => s = s') rfl
      (fun s hs => hs) (fun s z _ h => by cases h)
  have X := Xs 1
  have hend : follow none s0 childRun childRun.length = s' := by
    have := (follow_list (y := none) childRun h2).2 0
    rwa [Nat.add_zero] at this
  have I : Inv (fun _ => true) true s' := by rw [← hend]; exact reachF_any (X.reachF R _)
  have F := (rest_steps (P := Any) (fun _ _ _ => trivial) h2 h3.1.1 I).2
  obtain ⟨m, -, d, e⟩ := C66_thread_exits_partial R X F (n := 4) rfl
  obtain ⟨a1, a2⟩ := C66_join_false R X
  have hm : Mapped s' 1 := by
    obtain ⟨r, hr⟩ := Option.isSome_iff_exists.mp h3.2
    exact ⟨200, r, view_some hr⟩
  obtain ⟨m5, -, q5⟩ := (C66_calls_return_partial (j := 4) (h := 3) (f := some 1) (child_reach h1) (by simp) (Xs 4) F (n := 15)).2 rfl
  obtain ⟨m7, -, ⟨T, t1, t2⟩, -⟩ := C66_thread_exits_partial (h := 3) (f := some 1) (child_reach h1) (Xs 3) F (n := 18) rfl
  obtain ⟨m6, -, q6⟩ := C66_detached_released R X F q5 (n' := m7) ⟨T, t1, by rw [t2]; trivial⟩
  exact ⟨_, _, R, X, F, ⟨9, rfl⟩, ⟨m, d, e⟩, a1,
    ⟨childRun.length, fun n hn => (a2 childRun.length (by rw [hend]; exact h3.1.2) (by rw [hend]; exact hm) n hn).1⟩, ⟨m5, q5⟩, ⟨m6, q6⟩⟩

end Origin.Life
