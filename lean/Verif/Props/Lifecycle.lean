import Verif.Proof.Lifecycle6
/-!
# Thread lifecycle: C20–C27

Every theorem is about every reachable state of `Model/Lifecycle.lean`: any number of threads, any
schedule, any address and id reuse by the kernel, any client within the documented contract.

`Any`: no restriction at all.  A thread that touches memory it must not touch is recorded as a `fault` and does not get further; what the
hardware would do then is not modelled, so theorems about `Any` say something about the program up to its first fault.

`Orderly` excludes stray wake-ups: the kernel's exit-time wake-up of a thread reaching a waiter that
waits for a *later* thread created at the same address (`C20_false`, `C21_false`, `C23_false` show that
the code goes wrong there); `C21_no_early_reuse` shows that these need the creation of a thread at an
address whose previous occupant's exit is still being processed by the kernel.
-/

namespace Origin.Life

variable {w : Inst → Bool} {b sig : Bool} {s : State}

/-- No restriction on histories. -/
def Any : State → Action → Prop := fun _ _ => True

theorem Reach.any {P : State → Action → Prop} (h : Reach sig P s) : Inv (fun _ => true) sig s :=
  reach_inv (fun _ _ _ _ => .inl rfl) (fun _ _ _ _ => .inl rfl) h

/-- Orderly histories are histories. -/
theorem Reach.forget {P : State → Action → Prop} (h : Reach sig P s) : Reach sig Any s := by
  induction h with
  | init a tid ht => exact .init a tid ht
  | step _ _ hs ih => exact .step ih trivial hs

/-- weak everywhere but at `h` -/
def only (h : Inst) : Inst → Bool := fun i => decide (i ≠ h)

theorem only_self (h : Inst) : only h h = false := by simp [only]

theorem Reach.inv {h : Inst} (R : Reach sig (OrderlyFor h sig) s) : Inv (only h) sig s :=
  reach_inv
    (fun _ _ hp i => by
      by_cases hi : i = h
      · subst hi; exact .inr hp.1
      · exact .inl (by simp [only, hi]))
    (fun _ _ hp i => by
      by_cases hi : i = h
      · subst hi; exact .inr hp.2
      · exact .inl (by simp [only, hi])) R

/-- A history without any stray wake-up or late signal has none for `h`. -/
theorem Reach.orderlyFor (R : Reach sig (Orderly sig) s) (h : Inst) : Reach sig (OrderlyFor h sig) s := by
  induction R with
  | init a tid ht => exact .init a tid ht
  | step _ hp hs ih => exact .step ih ⟨fun h => hp.1 (stray_of h), hp.2.imp id fun hl h => hl (late_of h)⟩ hs

theorem trace_at {l newer older : List Ev} {e : Ev} (h : TraceOk w l) (hl : l = newer ++ e :: older) : EvOk w e older := by
  induction newer generalizing l with
  | nil => subst hl; exact h.1
  | cons x xs ih => subst hl; exact ih h.2 rfl

theorem trace_mem {l : List Ev} {e : Ev} (h : TraceOk w l) (he : e ∈ l) : ∃ old, EvOk w e old ∧ ∀ x ∈ old, x ∈ l := by
  obtain ⟨newer, older, hl⟩ := List.append_of_mem he
  refine ⟨older, trace_at h hl, fun x hx => ?_⟩
  rw [hl]; exact List.mem_append_right _ (List.mem_cons_of_mem _ hx)

/-! ## C20 -/

theorem Inv.joinValue {h : Inst} (I : Inv w sig s) (hw : w h = false) (j : Inst) (v : Nat) :
    Whenever s.log (.joined j h v) (fun old => Ev.returned h v ∈ old) ∧
    (Ev.joined j h v ∈ s.log → ∀ v', Ev.returned h v' ∈ s.log → v' = v) := by
  refine ⟨fun newer older hl => ((trace_at I.trace hl).1.resolve_left (by simp [hw])).1, ?_⟩
  intro hm v' hv'
  obtain ⟨old, h1, h2⟩ := trace_mem I.trace hm
  obtain ⟨T, hT⟩ := I.logThr _ hv'
  have L := (I.ok h T hT).link
  have a := (L.ret v).mp (h2 _ (h1.1.resolve_left (by simp [hw])).1)
  have b := (L.ret v').mp hv'
  rw [a] at b; injection b with b; exact b.symm

/-- **C20 (for a thread `h` none of whose waiters gets a stray wake-up, whatever happens to other threads).** Whenever `join(h)` returned `v`, `h`'s function had returned
exactly `v` before, and it never returned anything else. -/
theorem C20_join_value_partial {h : Inst} (R : Reach sig (OrderlyFor h sig) s) (j : Inst) (v : Nat) :
    Whenever s.log (.joined j h v) (fun old => Ev.returned h v ∈ old) ∧
    (Ev.joined j h v ∈ s.log → ∀ v', Ev.returned h v' ∈ s.log → v' = v) :=
  R.inv.joinValue (only_self h) j v

/-! ## C21 -/

theorem Inv.joinAfterExit {h : Inst} (I : Inv w sig s) (hw : w h = false) (j : Inst) :
    Whenever s.log (.unmap h j) (fun old => j ≠ h → Ev.exited h ∈ old) ∧
    (∀ v, Whenever s.log (.joined j h v) (fun old => Ev.exited h ∈ old)) := by
  refine ⟨fun newer older hl hne => ?_, fun v newer older hl => ((trace_at I.trace hl).1.resolve_left (by simp [hw])).2⟩
  rcases (trace_at I.trace hl).2 with h | h
  · exact absurd h.1 hne
  · exact h.1.resolve_left (by simp [hw])

/-- **C21 (for a thread `h` none of whose waiters gets a stray wake-up).** Whenever `h`'s memory is unmapped by another thread, and whenever
`join(h)` returns, `h` had made its last step (its `exit` system call) before. -/
theorem C21_join_after_exit_partial {h : Inst} (R : Reach sig (OrderlyFor h sig) s) (j : Inst) :
    Whenever s.log (.unmap h j) (fun old => j ≠ h → Ev.exited h ∈ old) ∧
    (∀ v, Whenever s.log (.joined j h v) (fun old => Ev.exited h ∈ old)) :=
  R.inv.joinAfterExit (only_self h) j

/-- **C21: when it holds.** If no thread is ever created at an address where an exited thread's wake-up
is outstanding, no stray wake-up happens: everything proved here for `Orderly` runs holds. -/
theorem C21_no_early_reuse (R : Reach sig (NoEarlyReuse sig) s) : Reach sig (Orderly sig) s :=
  reach_mono (fun _ _ h => h.1) (by cases sig; exact .inr fun _ _ h => h.2.resolve_left (by simp); exact .inl rfl)
    (fun _ _ h h' => ⟨h', h.2⟩) R

/-! ## C22 -/

theorem Inv.freedOnce (I : Inv w sig s) (h : Inst) :
    unmaps h s.log ≤ 1 ∧
    ∀ j, Whenever s.log (.unmap h j) (fun old =>
      (∀ j', Ev.unmap h j' ∉ old) ∧
      ((j = h ∧ Ev.exited h ∉ old ∧ ∃ d, Ev.detachDone d h ∈ old) ∨ Ev.joinCall j h ∈ old ∨ Ev.detachCall j h ∈ old)) := by
  refine ⟨?_, fun j newer older hl => (trace_at I.trace hl).imp id fun h => h.imp id And.right⟩
  cases hT : s.thr h with
  | none =>
    rw [unmaps_zero]
    · omega
    · intro j hj
      obtain ⟨T, hT'⟩ := I.logThr _ hj
      simp only [Ev.about] at hT'
      rw [hT] at hT'; cases hT'
  | some T => exact (I.ok h T hT).link.um1

/-- **C22.** In every history: each thread's memory is unmapped at most once; and only by itself, before its last instruction and after it was
detached, or by the thread that called `join` or `detach` on it.  (That it has exited by then in the second case is C21.) -/
theorem C22_freed_once (R : Reach sig Any s) (h : Inst) :
    unmaps h s.log ≤ 1 ∧
    ∀ j, Whenever s.log (.unmap h j) (fun old =>
      (∀ j', Ev.unmap h j' ∉ old) ∧
      ((j = h ∧ Ev.exited h ∉ old ∧ ∃ d, Ev.detachDone d h ∈ old) ∨ Ev.joinCall j h ∈ old ∨ Ev.detachCall j h ∈ old)) :=
  R.any.freedOnce h

/-! ## C23 -/

/-- **C23 (other threads' memory).** In every history, also after stray wake-ups: no thread ever touches the memory of *another* thread after it was
unmapped or mapped anew — not in `join`, not in `detach`, not in `id`. -/
theorem C23_other_memory (R : Reach sig Any s) {t h : Inst} (hne : t ≠ h) : Ev.fault t h ∉ s.log := by
  intro hm
  obtain ⟨old, h1, -⟩ := trace_mem R.any.trace hm
  exact hne h1.1

/-- **C23 (for a thread `h` none of whose waiters gets a stray wake-up; with the `signal` feature, or without it if no signal handler runs on
`h`, detached, between its `munmap` and its `exit`).** Nobody — not the thread itself, not another thread, not the kernel clearing the thread id —
touches `h`'s memory when it is unmapped or has been mapped anew for another thread. -/
theorem C23_no_use_after_free_partial {h : Inst} (R : Reach sig (OrderlyFor h sig) s) (t : Inst) : Ev.fault t h ∉ s.log := by
  intro hm
  obtain ⟨old, h1, -⟩ := trace_mem R.inv.trace hm
  have := h1.2
  rw [only_self] at this; cases this

/-! ## C24 -/

/-- **C24.** In every history: once the kernel has completed `h`'s exit, nobody is asleep waiting for it. -/
theorem C24_not_blocked (R : Reach sig Any s) {j h : Inst} {k : Kind} {a : Nat} (hd : Done s h) :
    s.call j ≠ some (.blocked k a h) := by
  intro hc
  obtain ⟨T, hT, hs⟩ := hd
  obtain ⟨H, h1, -, h3⟩ := (R.any.callOk _ _ hc).target
  simp only [Call.target] at h1
  rw [hT] at h1; injection h1 with h1; subst h1
  exact h3.elim (by rw [(reach_noFork R).1 _ _ hT]; simp) (· hs)

/-- steps left -/
def Call.left : Call → Nat
  | .swap .. => 8
  | .wait .. => 7
  | .load .. => 6
  | .blocked .. => 9
  | .loadRet .. => 5
  | .readFields .. => 4
  | .drop .. => 3
  | .unmap .. => 2

/-- The end of a `join` or `detach` of `h` by `j`. -/
def Ended (s : State) (j h : Inst) : Prop := (∃ v, Ev.joined j h v ∈ s.log) ∨ Ev.detachDone j h ∈ s.log

/-- A step of a call leaves the record of a thread that is not its target. -/
theorem callStep_view {s s' : State} {t j : Inst} {a : Nat} {r rt : Rec} {c : Call} (hv : s.view c.addr c.target = some r)
    (h : callStep s t r c = some s') (hj : s.view a j = some rt) (hne : j ≠ c.target) : s'.view a j = some rt := by
  obtain ⟨a1, a2⟩ := view_some hv
  obtain ⟨b1, b2⟩ := view_some hj
  have hane : a ≠ c.addr := by
    rintro rfl
    rw [a1] at b1; injection b1 with b1; subst b1
    exact hne (b2.symm.trans a2)
  refine view_of ?_ b2
  rw [← b1]
  cases c <;> simp only [callStep] at h <;> (try split at h) <;> (try cases h) <;> simp only [Call.addr] at hane <;>
    first
    | rfl
    | (simp [State.setCall, State.setCons, State.setRec, State.ev, hane]; done)
    | (rename_i k _ _ _ _; cases k <;> simp [State.finish, State.setCall, State.setCons, State.setRec, State.ev, hane]; done)
    | (rename_i k _ _ _; cases k <;> simp [State.finish, State.setCall, State.setCons, State.setRec, State.ev, hane]; done)
    | (rename_i k _ _ _ _ _; cases k <;> simp [State.finish, State.setCall, State.setCons, State.setRec, State.ev, hane]; done)

theorem call_progress (I : Inv w sig s) {j h : Inst} (hN : ∀ H, s.thr h = some H → H.forked = false) {c : Call} (hc : s.call j = some c) (ht : c.target = h)
    (hd : Done s h) {T : Thr} {rt : Rec} (hT : s.thr j = some T) (hrt : s.view T.addr j = some rt) :
    ∃ s', step sig s (.step j) = some s' ∧ Done s' h ∧ s'.thr j = some T ∧ s'.view T.addr j = some rt ∧
      (Ended s' j h ∨ ∃ c', s'.call j = some c' ∧ c'.target = h ∧ c'.left < c.left) := by
  subst ht
  have C := I.callOk _ _ hc
  obtain ⟨T', hT', hu⟩ := C.actor
  rw [hT] at hT'; injection hT' with hT'; subst hT'
  obtain ⟨H, hH, hHa, hval⟩ := C.target
  obtain ⟨H', hH', hdead⟩ := hd
  rw [hH] at hH'; injection hH' with hH'; subst hH'
  have G := (I.ok _ _ hH).good
  have hjt : j ≠ c.target := fun h => by
    rw [← h, hT] at hH; injection hH with hH; subst hH; rw [hdead] at hu; exact hu
  have O := I.ok _ _ hH
  rw [C.cons, hHa] at G
  have hne0 := O.tid
  have hrec : ∃ r, s.view c.addr c.target = some r ∧ (c.phase = .waiting → r.tid = 0) := by
    cases hp : c.phase with
    | start =>
      have hk : c.kind = .detach := by cases c <;> simp_all [Call.phase, Call.kind]
      rw [hp, hk] at G
      obtain ⟨r, hr⟩ := G.waiting_user _ rfl
      exact ⟨r, hr, by simp⟩
    | waiting =>
      rw [hp] at G
      obtain ⟨r, hr, -⟩ := G.waitRec
      refine ⟨r, hr, fun _ => ?_⟩
      rw [hr] at G
      simp only [Good, hdead, Over, DetGone, Released, Stuck, hN _ hH, Bool.false_eq_true, false_and, or_false] at G
      simp at G
      grind
    | freeing =>
      rw [hp] at G
      obtain ⟨-, r, hr, -⟩ := G.freeing
      exact ⟨r, hr, by simp⟩
    | freed => cases c <;> simp [Call.phase] at hp
    | released => cases c <;> simp [Call.phase] at hp
  obtain ⟨r, hr, hz⟩ := hrec
  have hstep : (∀ k a x, c ≠ .blocked k a x) → step sig s (.step j) = callStep s j r c := by
    intro hnb
    simp only [step, hT]
    cases hs : T.stage <;> simp [hs, Stage.user] at hu <;> simp only [hrt, hc] <;> cases c <;> simp_all
  suffices key : (∀ k a x, c ≠ .blocked k a x) → ∃ s', callStep s j r c = some s' ∧
      (Ended s' j c.target ∨ ∃ c', s'.call j = some c' ∧ c'.target = c.target ∧ c'.left < c.left) by
    have hnb : ∀ k a x, c ≠ .blocked k a x := by rintro k a x rfl; exact hval.elim (by rw [hN _ hH]; simp) (· hdead)
    obtain ⟨s', h1, h2⟩ := key hnb
    have he := callStep_thr h1
    exact ⟨s', by rw [hstep hnb, h1], ⟨H, by rw [he]; exact hH, hdead⟩, by rw [he]; exact hT, callStep_view hr h1 hrt hjt, h2⟩
  intro hnb
  have hcall : ∀ c', (s.setCall j (some c')).call j = some c' := by intro c'; simp [State.setCall]
  cases c with
  | swap a x =>
    simp only [callStep]
    split
    · exact ⟨_, rfl, .inr ⟨.load .detach a x, by simp [State.setCall, State.setCons], rfl, by simp [Call.left]⟩⟩
    · exact ⟨_, rfl, .inl (.inr (by simp [State.ev, Call.target]))⟩
  | load k a x =>
    simp only [callStep, hz rfl, if_true]
    refine ⟨_, rfl, .inr ⟨afterWait k a x, by simp [State.setCall, State.setCons], (afterWait_props (b := true) k a x).1, ?_⟩⟩
    cases k <;> simp [afterWait, Call.left]
  | wait k a x v =>
    have hv : v = H.tid := hval
    simp only [callStep, hz rfl]
    rw [if_neg (by omega)]
    exact ⟨_, rfl, .inr ⟨.load k a x, hcall _, rfl, by simp [Call.left]⟩⟩
  | blocked k a x => exact absurd rfl (hnb k a x)
  | loadRet a x =>
    exact ⟨_, rfl, .inr ⟨.readFields .join a x r.ret, hcall _, rfl, by simp [Call.left]⟩⟩
  | readFields k a x v =>
    exact ⟨_, rfl, .inr ⟨.drop k a x v r.owned, hcall _, rfl, by simp [Call.left]⟩⟩
  | drop k a x v o =>
    have ho : o = true := by cases k with
      | join => exact hval.2
      | detach => exact hval
    subst ho
    simp only [callStep, if_true]
    exact ⟨_, rfl, .inr ⟨.unmap k a x v, hcall _, rfl, by simp [Call.left]⟩⟩
  | unmap k a x v =>
    refine ⟨_, rfl, .inl ?_⟩
    cases k
    · exact .inl ⟨v, by simp [State.finish, State.ev, Call.target]⟩
    · exact .inr (by simp [State.finish, State.ev, Call.target])

theorem Inv.callCompletes (I : Inv (fun _ => true) sig s) {j h : Inst} (hN : ∀ H, s.thr h = some H → H.forked = false) {c : Call}
    (hc : s.call j = some c) (ht : c.target = h) (hd : Done s h) (hm : Mapped s j) :
    ∃ n s', n ≤ 8 ∧ run sig s (List.replicate n (.step j)) = some s' ∧ Ended s' j h := by
  have hnb : c.left ≤ 8 := by
    cases c <;> simp [Call.left]
    rename_i k a x
    simp only [Call.target] at ht; subst ht
    obtain ⟨T, hT, hs⟩ := hd
    obtain ⟨H, h1, -, h3⟩ := (I.callOk _ _ hc).target
    simp only [Call.target] at h1
    rw [hT] at h1; injection h1 with h1; subst h1
    exact h3.elim (by rw [hN _ hT]; simp) (· hs)
  obtain ⟨a, rt, hr1, hr2⟩ := hm
  obtain ⟨T, hT, hTa⟩ := I.recOk a rt hr1
  rw [hr2] at hT
  suffices H : ∀ n (s : State) (c : Call), c.left ≤ n → Inv (fun _ => true) sig s → (∀ H, s.thr h = some H → H.forked = false) →
      s.call j = some c → c.target = h → Done s h → s.thr j = some T → s.view T.addr j = some rt →
      ∃ m s', m ≤ n ∧ run sig s (List.replicate m (.step j)) = some s' ∧ Ended s' j h from
    H 8 s c hnb I hN hc ht hd hT (by rw [hTa]; exact view_of hr1 hr2)
  intro n
  induction n with
  | zero =>
    intro s c hl _ _ _ _ _
    cases c <;> simp [Call.left] at hl
  | succ n ih =>
    intro s c hl I hN hc ht hd hT hrt
    obtain ⟨s1, h1, h2, h4, h5, h3⟩ := call_progress I hN hc ht hd hT hrt
    have I1 : Inv (fun _ => true) sig s1 := step_inv I (x := .step j) (fun _ => .inl rfl) (fun _ => .inl rfl) h1
    rcases h3 with h3 | ⟨c', q1, q2, q3⟩
    · exact ⟨1, s1, by omega, by simp [run, h1], h3⟩
    · have hN1 : ∀ H, s1.thr h = some H → H.forked = false := by
        intro H' hH'
        obtain ⟨H, hH, -⟩ := hd
        obtain ⟨Y, a1, a2, -⟩ := (step_forked I.lt h1).keep h H hH
        rw [hH'] at a1; injection a1 with a1; subst a1
        rw [a2]; exact hN H hH
      obtain ⟨m, s', w1, w2, w3⟩ := ih s1 c' (by omega) I1 hN1 q1 q2 h2 h4 h5
      refine ⟨m + 1, s', by omega, ?_, w3⟩
      rw [List.replicate_succ]
      simp only [run, h1, Option.bind_some, w2]

/-- **C24 (the waiter gets out).** In every history: once the kernel has completed `h`'s exit, a thread `j` (whose own memory is still mapped) in
the middle of `join(h)` or `detach(h)` is not only awake: its own steps alone take it to the end of the call, within eight steps. -/
theorem C24_call_completes (R : Reach sig Any s) {j h : Inst} {c : Call} (hc : s.call j = some c)
    (ht : c.target = h) (hd : Done s h) (hm : Mapped s j) :
    ∃ n s', n ≤ 8 ∧ run sig s (List.replicate n (.step j)) = some s' ∧ Ended s' j h :=
  R.any.callCompletes ((reach_noFork R).1 h) hc ht hd hm

/-! ## C25 -/

theorem mapped_iff (I : Inv w sig s) {h : Inst} {T : Thr} (hT : s.thr h = some T) :
    Mapped s h ↔ s.view T.addr h ≠ none := by
  constructor
  · rintro ⟨a, r, h1, h2⟩
    obtain ⟨T', q1, q2⟩ := I.recOk a r h1
    rw [h2, hT] at q1; injection q1 with q1; subst q1
    rw [q2, view_of h1 h2]; simp
  · intro hv
    cases h : s.view T.addr _ with
    | none => exact absurd h hv
    | some r => exact ⟨_, r, (view_some h).1, (view_some h).2⟩

theorem Inv.noLeak (I : Inv w sig s) {h : Inst}
    (hd : (∃ j v, Ev.joined j h v ∈ s.log) ∨ (∃ j, Ev.detachDone j h ∈ s.log) ∧ Ev.exited h ∈ s.log) :
    (∃ j, Ev.unmap h j ∈ s.log) ∧ ¬ Mapped s h := by
  obtain ⟨T, hT⟩ : ∃ T, s.thr h = some T := by
    rcases hd with ⟨j, v, hm⟩ | ⟨⟨j, hm⟩, -⟩ <;> exact I.logThr _ hm
  have L := (I.ok h T hT).link
  have G := (I.ok h T hT).good
  rw [mapped_iff I hT, L.um]
  simp only [ne_eq, Classical.not_not, and_self]
  rcases hd with ⟨j, v, hm⟩ | ⟨⟨j, hm⟩, hx⟩
  · have hc := L.jd j v hm
    rw [hc] at G
    cases hs : T.stage <;> simp only [Good, hs, Live, Stuck, Aband, Lost, Over, Det, DetGone, Released, Pending] at G <;>
      simp at G <;> grind
  · have hc := (L.dd j).mp hm
    have hg := L.ex.mp hx
    cases hs : T.stage <;> simp only [Good, hs, Live, Stuck, Aband, Lost, Over, Det, DetGone, Released, Pending] at G <;>
      simp [hs, Stage.gone] at hg <;> rcases hc with hc | hc <;> rw [hc] at G <;> simp at G <;> grind

/-- **C25 (no leak).** In every history: if a thread's `join` has returned, or its `detach` has returned and it has
exited, its memory has been unmapped and is not mapped any more. -/
theorem C25_no_leak (R : Reach sig Any s) {h : Inst}
    (hd : (∃ j v, Ev.joined j h v ∈ s.log) ∨ (∃ j, Ev.detachDone j h ∈ s.log) ∧ Ev.exited h ∈ s.log) :
    (∃ j, Ev.unmap h j ∈ s.log) ∧ ¬ Mapped s h :=
  R.any.noLeak hd

theorem Inv.staysMapped (I : Inv w sig s) {p h : Inst} {a tid : Nat}
    (hc : Ev.created p h a tid ∈ s.log) (h1 : ∀ j, Ev.joinCall j h ∉ s.log) (h2 : ∀ j, Ev.detachCall j h ∉ s.log) :
    ∃ r, s.recs a = some r ∧ r.owner = h := by
  obtain ⟨T, hT⟩ := I.logThr _ hc
  have L := (I.ok h T hT).link
  have G := (I.ok h T hT).good
  have hn : s.cons h = none := by
    cases hcs : s.cons h with
    | none => rfl
    | some c =>
      obtain ⟨j, k, ph⟩ := c
      cases k with
      | join => exact absurd ((L.jc j).mpr ⟨ph, hcs⟩) (h1 j)
      | detach => exact absurd ((L.dc j).mpr ⟨ph, hcs⟩) (h2 j)
  rw [hn] at G
  obtain ⟨r, hr⟩ := G.none_rec
  have := (L.cr1 p a tid hc).1
  rw [this]
  exact ⟨r, view_some hr⟩

/-- **C25 (memory stays).** In every history: a thread on which neither `join` nor `detach` was called keeps its memory:
its handle stays valid, whatever it and the others do. -/
theorem C25_stays_mapped (R : Reach sig Any s) {p h : Inst} {a tid : Nat}
    (hc : Ev.created p h a tid ∈ s.log) (h1 : ∀ j, Ev.joinCall j h ∉ s.log) (h2 : ∀ j, Ev.detachCall j h ∉ s.log) :
    ∃ r, s.recs a = some r ∧ r.owner = h :=
  R.any.staysMapped hc h1 h2

/-- **C25 (the main thread).** In every history: the main thread's memory is never unmapped, also if it is joined or detached. -/
theorem C25_main_stays (R : Reach sig Any s) : Mapped s 0 ∧ ∀ j, Ev.unmap 0 j ∉ s.log := by
  have I := R.any
  obtain ⟨T, hT⟩ := Option.ne_none_iff_exists'.mp (reach_noFork R).2
  have O := I.ok 0 T hT
  have hv := (O.main.2.2 rfl).1
  exact ⟨(mapped_iff I hT).mpr hv, fun j hj => hv (O.link.um.mp ⟨j, hj⟩)⟩

/-! ## C26 -/

/-- **C26.** In every history: whenever `id(h)` (or, on `h` itself, `current_id()`) was called, the result was the id the
kernel gave `h` at creation if the kernel had not processed `h`'s exit yet, and `None` if it had. -/
theorem C26_id (R : Reach sig Any s) (t h : Inst) (r : Option Nat) :
    Whenever s.log (.idRes t h r) (fun old => ∃ p a tid, Ev.created p h a tid ∈ old ∧
      (Ev.cleared h ∉ old → r = some tid) ∧ (Ev.cleared h ∈ old → r = none)) :=
  fun _ _ hl => trace_at R.any.trace hl

theorem Inv.currentId (I : Inv w sig s) {t : Inst} {T : Thr} (hT : s.thr t = some T)
    (hu : s.inUser t T = true) (hm : Mapped s t) : step sig s (.id t t) = some (s.ev (.idRes t t (some T.tid))) := by
  obtain ⟨-, hus⟩ := inUser_iff hu
  have O := I.ok t T hT
  obtain ⟨r, hr, htid⟩ := (O.good.user_rec hus).resolve_left fun h => (mapped_iff I hT).mp hm h.2
  have h0 := O.tid
  simp only [step, hT, hu, hr]
  simp [htid, h0]

/-- **C26 (own id).** In every history: a thread in user code (its memory being mapped) always gets `Some` of its own kernel id from `current_id`. -/
theorem C26_current_id (R : Reach sig Any s) {t : Inst} {T : Thr} (hT : s.thr t = some T)
    (hu : s.inUser t T = true) (hm : Mapped s t) : step sig s (.id t t) = some (s.ev (.idRes t t (some T.tid))) :=
  R.any.currentId hT hu hm

/-! ## C27 -/

theorem Inv.distinct (I : Inv w sig s) {h h' : Inst} {T T' : Thr} (hT : s.thr h = some T)
    (hT' : s.thr h' = some T') (hne : h ≠ h') :
    (Mapped s h → Mapped s h' → T.addr ≠ T'.addr) ∧ (¬ Done s h → ¬ Done s h' → T.tid ≠ T'.tid) := by
  constructor
  · intro m1 m2 heq
    rw [mapped_iff I hT] at m1
    rw [mapped_iff I hT'] at m2
    cases h1 : s.view T.addr h with
    | none => exact m1 h1
    | some r =>
      cases h2 : s.view T'.addr h' with
      | none => exact m2 h2
      | some r' =>
        obtain ⟨a1, a2⟩ := view_some h1
        obtain ⟨b1, b2⟩ := view_some h2
        rw [heq, b1] at a1; injection a1 with a1
        rw [← a1, b2] at a2
        exact hne a2.symm
  · intro d1 d2 heq
    exact hne (I.tids h T h' T' hT hT' (fun h => d1 ⟨T, hT, h⟩) (fun h => d2 ⟨T', hT', h⟩) heq)

/-- **C27.** In every reachable state: two instances whose memory is mapped have different handles, and two the kernel still knows
have different ids. -/
theorem C27_distinct (R : Reach sig Any s) {h h' : Inst} {T T' : Thr} (hT : s.thr h = some T)
    (hT' : s.thr h' = some T') (hne : h ≠ h') :
    (Mapped s h → Mapped s h' → T.addr ≠ T'.addr) ∧ (¬ Done s h → ¬ Done s h' → T.tid ≠ T'.tid) :=
  R.any.distinct hT hT' hne

/-! ## the code goes wrong after a stray wake-up -/

theorem reach_run (xs : List Action) : ∀ {s s' : State}, Reach sig (fun _ _ => True) s → run sig s xs = some s' →
    Reach sig (fun _ _ => True) s' := by
  induction xs with
  | nil => intro s s' R h; simp [run] at h; subst h; exact R
  | cons x xs ih =>
    intro s s' R h
    simp only [run, Option.bind_eq_some_iff] at h
    obtain ⟨s1, h1, h2⟩ := h
    exact ih (.step R trivial h1) h2

/-- Thread 1 exits; main joins it while the kernel is between clearing its id and waking; main creates
thread 2, which gets the same memory, and joins it; the kernel's wake-up for thread 1 wakes main, whose
`join` returns although thread 2 is running; then thread 2 goes on. -/
def strayRun : List Action :=
  [ .create 0 200 2, .step 1, .ret 1 5, .dtorsDone 1, .step 1, .step 1, .step 1, .step 1,
    .join 0 1, .step 0, .step 0, .step 0, .step 0, .step 0,
    .create 0 200 3, .step 2, .join 0 2, .step 0, .step 0,
    .wake 1 (some 0), .step 0, .step 0, .step 0, .step 0, .ret 2 7 ]

def strayLog : Option (List Ev) := (run true (init 100 1) strayRun).map State.log

theorem strayLog_eq : strayLog = some
    [ .fault 2 2, .joined 0 2 0, .unmap 2 0, .joinCall 0 2, .created 0 2 200 3, .joined 0 1 5, .unmap 1 0,
      .joinCall 0 1, .cleared 1, .exited 1, .returned 1 5, .created 0 1 200 2, .created 0 0 100 1 ] := by
  decide

theorem stray_state : ∃ s, Reach true (fun _ _ => True) s ∧ s.log =
    [ .fault 2 2, .joined 0 2 0, .unmap 2 0, .joinCall 0 2, .created 0 2 200 3, .joined 0 1 5, .unmap 1 0,
      .joinCall 0 1, .cleared 1, .exited 1, .returned 1 5, .created 0 1 200 2, .created 0 0 100 1 ] := by
  have h := strayLog_eq
  unfold strayLog at h
  rw [Option.map_eq_some_iff] at h
  obtain ⟨s, h1, h2⟩ := h
  exact ⟨s, reach_run strayRun (.init 100 1 (by decide)) h1, h2⟩

/-- **C20 is false** without the restriction: a `join` returns `None` for a function that has not
returned. -/
theorem C20_false : ∃ s, Reach true (fun _ _ => True) s ∧ Ev.joined 0 2 0 ∈ s.log ∧ ∀ v, Ev.returned 2 v ∉ s.log := by
  obtain ⟨s, R, h⟩ := stray_state
  exact ⟨s, R, by rw [h]; decide, fun v => by rw [h]; simp⟩

/-- **C21 is false** without the restriction: a thread's memory is unmapped by its joiner while it is
running. -/
theorem C21_false : ∃ s, Reach true (fun _ _ => True) s ∧ Ev.unmap 2 0 ∈ s.log ∧ Ev.exited 2 ∉ s.log := by
  obtain ⟨s, R, h⟩ := stray_state
  exact ⟨s, R, by rw [h]; decide, by rw [h]; decide⟩

/-- **C23 is false** without the restriction: that thread then runs on unmapped memory. -/
theorem C23_false : ∃ s, Reach true (fun _ _ => True) s ∧ Ev.fault 2 2 ∈ s.log := by
  obtain ⟨s, R, h⟩ := stray_state
  exact ⟨s, R, by rw [h]; decide⟩

/-- **C23 without the `signal` feature**: a signal arriving between the `munmap` and the `exit` of a
detached thread runs its handler on the unmapped stack. -/
theorem C23_late_signal_false : ∃ s, Reach false (fun s x => ¬ Stray s x) s ∧ Ev.fault 1 1 ∈ s.log := by
  have key : ∀ (xs : List Action) {s s' : State}, (∀ x ∈ xs, ∀ s, ¬ Stray s x) → Reach false (fun s x => ¬ Stray s x) s →
      run false s xs = some s' → Reach false (fun s x => ¬ Stray s x) s' := by
    intro xs
    induction xs with
    | nil => intro s s' _ R h; simp [run] at h; subst h; exact R
    | cons x xs ih =>
      intro s s' hx R h
      simp only [run, Option.bind_eq_some_iff] at h
      obtain ⟨s1, h1, h2⟩ := h
      exact ih (fun y hy => hx y (List.mem_cons_of_mem _ hy)) (.step R (hx x List.mem_cons_self s) h1) h2
  have h : ((run false (init 100 1) [.create 0 200 2, .step 1, .detach 0 1, .step 0, .ret 1 5, .dtorsDone 1,
      .step 1, .step 1, .step 1, .step 1, .step 1, .step 1, .signal 1]).map fun s => decide (Ev.fault 1 1 ∈ s.log))
      = some true := by decide
  rw [Option.map_eq_some_iff] at h
  obtain ⟨s, h1, h2⟩ := h
  refine ⟨s, key _ ?_ (.init 100 1 (by decide)) h1, by simpa using h2⟩
  intro x hx s
  simp at hx
  rcases hx with rfl | rfl | rfl | rfl | rfl | rfl | rfl | rfl <;> simp [Stray]

/-! ### non-vacuity: an orderly history with a blocked joiner, a detached thread and address reuse -/

instance (s : State) (x : Action) : Decidable (Stray s x) :=
  match x with
  | .wake _ (some j) =>
    match h : s.call j with
    | some (.blocked k a y) =>
      if hc : Ev.cleared y ∈ s.log then
        isFalse (by rintro ⟨k', a', y', h1, h2⟩; rw [h] at h1; cases h1; exact h2 hc)
      else isTrue ⟨k, a, y, h, hc⟩
    | none => isFalse (by rintro ⟨k', a', y', h1, h2⟩; rw [h] at h1; cases h1)
    | some (.swap _ _) | some (.load _ _ _) | some (.wait _ _ _ _) | some (.loadRet _ _) | some (.readFields _ _ _ _)
    | some (.drop _ _ _ _ _) | some (.unmap _ _ _ _) =>
      isFalse (by rintro ⟨k', a', y', h1, h2⟩; rw [h] at h1; cases h1)
  | .wake _ none | .create .. | .ret .. | .dtorsDone .. | .join .. | .detach .. | .id .. | .step .. | .intr ..
  | .signal .. => isFalse (by simp [Stray])

/-- Run, insisting on no stray wake-up. -/
def runOrderly (s : State) : List Action → Option State
  | [] => some s
  | x :: xs => if Stray s x then none else (step true s x).bind (runOrderly · xs)

theorem reach_runOrderly (xs : List Action) : ∀ {s s' : State}, Reach true (Orderly true) s → runOrderly s xs = some s' →
    Reach true (Orderly true) s' := by
  induction xs with
  | nil => intro s s' R h; simp [runOrderly] at h; subst h; exact R
  | cons x xs ih =>
    intro s s' R h
    simp only [runOrderly] at h
    split at h
    · cases h
    · next hn =>
      rw [Option.bind_eq_some_iff] at h
      obtain ⟨s1, h1, h2⟩ := h
      exact ih (.step R ⟨hn, .inl rfl⟩ h1) h2

def orderlyRun : List Action :=
  [ .create 0 200 2, .join 0 1, .step 0, .step 0, .step 1, .intr 0, .step 0, .step 0, .signal 1, .id 1 1,
    .create 1 300 3, .detach 1 2, .step 1, .ret 1 5, .dtorsDone 1, .step 1, .step 1, .step 1, .step 1,
    .wake 1 (some 0), .step 0, .step 0, .step 0, .step 0,
    .create 0 200 2, .id 0 3, .step 3, .ret 3 9, .dtorsDone 3, .step 3, .detach 0 3, .step 0, .step 3, .step 3, .step 3,
    .step 0, .step 0, .step 0, .step 0,
    .step 2, .ret 2 8, .dtorsDone 2, .step 2, .step 2, .step 2, .step 2, .step 2, .step 2, .step 2, .step 2 ]

/-- There is a reachable orderly history in which a joiner sleeps, is interrupted, sleeps again and is
woken and gets 5, the address is reused, a thread is detached in the middle of its exit and freed by the
detacher, and a detached thread frees itself. -/
example : ∃ s, Reach true (Orderly true) s ∧ Ev.joined 0 1 5 ∈ s.log ∧ Ev.unmap 1 0 ∈ s.log ∧
    Ev.detachDone 0 3 ∈ s.log ∧ Ev.unmap 3 0 ∈ s.log ∧ Ev.unmap 2 2 ∈ s.log ∧ Ev.exited 2 ∈ s.log ∧
    Ev.idRes 0 3 (some 2) ∈ s.log := by
  have h : ((runOrderly (init 100 1) orderlyRun).map fun s => decide (Ev.joined 0 1 5 ∈ s.log ∧ Ev.unmap 1 0 ∈ s.log ∧
    Ev.detachDone 0 3 ∈ s.log ∧ Ev.unmap 3 0 ∈ s.log ∧ Ev.unmap 2 2 ∈ s.log ∧ Ev.exited 2 ∈ s.log ∧
    Ev.idRes 0 3 (some 2) ∈ s.log)) = some true := by decide
  rw [Option.map_eq_some_iff] at h
  obtain ⟨s, h1, h2⟩ := h
  exact ⟨s, reach_runOrderly _ (.init 100 1 (by decide)) h1, by simpa using h2⟩

instance (h : Inst) (s : State) (x : Action) : Decidable (StrayFor h s x) :=
  match x with
  | .wake _ (some j) =>
    match hj : s.call j with
    | some (.blocked k a y) =>
      if hc : y = h ∧ Ev.cleared h ∉ s.log then
        isTrue ⟨k, a, by rw [hj, hc.1], hc.2⟩
      else isFalse (by rintro ⟨k', a', h1, h2⟩; rw [hj] at h1; cases h1; exact hc ⟨rfl, h2⟩)
    | none => isFalse (by rintro ⟨k', a', h1, h2⟩; rw [hj] at h1; cases h1)
    | some (.swap _ _) | some (.load _ _ _) | some (.wait _ _ _ _) | some (.loadRet _ _) | some (.readFields _ _ _ _)
    | some (.drop _ _ _ _ _) | some (.unmap _ _ _ _) =>
      isFalse (by rintro ⟨k', a', h1, h2⟩; rw [hj] at h1; cases h1)
  | .wake _ none | .create .. | .ret .. | .dtorsDone .. | .join .. | .detach .. | .id .. | .step .. | .intr ..
  | .signal .. => isFalse (by simp [StrayFor])

/-- Run, insisting on no stray wake-up of waiters for `h`. -/
def runOrderlyFor (h : Inst) (s : State) : List Action → Option State
  | [] => some s
  | x :: xs => if StrayFor h s x then none else (step true s x).bind (runOrderlyFor h · xs)

theorem reach_runOrderlyFor {h : Inst} (xs : List Action) : ∀ {s s' : State}, Reach true (OrderlyFor h true) s →
    runOrderlyFor h s xs = some s' → Reach true (OrderlyFor h true) s' := by
  induction xs with
  | nil => intro s s' R h; simp [runOrderlyFor] at h; subst h; exact R
  | cons x xs ih =>
    intro s s' R h
    simp only [runOrderlyFor] at h
    split at h
    · cases h
    · next hn =>
      rw [Option.bind_eq_some_iff] at h
      obtain ⟨s1, h1, h2⟩ := h
      exact ih (.step R ⟨hn, .inl rfl⟩ h1) h2

/-- The history with the stray wake-up (which hits thread 2's waiter) is orderly for thread 1: C20, C21 and C23 hold of thread 1 in it. -/
example : ∃ s, Reach true (OrderlyFor 1 true) s ∧ Ev.joined 0 1 5 ∈ s.log ∧ Ev.fault 2 2 ∈ s.log ∧
    (∀ v', Ev.returned 1 v' ∈ s.log → v' = 5) ∧ Ev.fault 0 1 ∉ s.log := by
  have h : ((runOrderlyFor 1 (init 100 1) strayRun).map fun s => decide (Ev.joined 0 1 5 ∈ s.log ∧ Ev.fault 2 2 ∈ s.log)) = some true := by
    decide
  rw [Option.map_eq_some_iff] at h
  obtain ⟨s, h1, h2⟩ := h
  have R := reach_runOrderlyFor _ (.init 100 1 (by decide)) h1
  simp only [decide_eq_true_eq] at h2
  exact ⟨s, R, h2.1, h2.2, (C20_join_value_partial R 0 5).2 h2.1, C23_no_use_after_free_partial R 0⟩

/-- … and that history meets the hypotheses of the theorems about every history. -/
example : ∃ s, Reach true Any s ∧ unmaps 2 s.log = 1 ∧ Ev.joined 0 2 0 ∈ s.log ∧ Mapped s 0 ∧ ¬ Mapped s 2 := by
  obtain ⟨s, R, h⟩ := stray_state
  have hj : Ev.joined 0 2 0 ∈ s.log := by rw [h]; decide
  exact ⟨s, R, by rw [h]; decide, hj, (C25_main_stays R).1, (C25_no_leak R (.inl ⟨0, 0, hj⟩)).2⟩

end Origin.Life
