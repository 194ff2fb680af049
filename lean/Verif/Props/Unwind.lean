import Verif.Proof.Unwind4
/-!
# C75: panics in the functions origin calls

Every theorem is about an arbitrary state reachable with any number of panics (`UReach c u`), or about an arbitrary infinite execution with panics (`UExec`).
-/

namespace Origin.Proc

set_option linter.unusedSimpArgs false

variable {c : Cfg} {s s' : State} {u u' : UState} {st : Nat → UState} {act : Nat → Option UAct}

/-! ## What C28 – C34 say, with panics -/

/-- **C75 (a thread's functions).** Whatever panics: whenever a function is called as one of a thread's `at_exit` functions, that thread had registered it, it had not
been called before (also not by an `exit` call that a panic has left), and every function the thread registered after it has been called. -/
theorem C75_thread_lifo (h : UReach c u) (t : Tid) (o : Option Exit) (f : FnId) :
    Whenever u.s.log (.tCall t o f) fun old =>
      .tReg t f ∈ old ∧ ¬ TCalled old t f ∧ ∀ g, Later old (.tReg t g) (.tReg t f) → TCalled old t g :=
  whenever_of h.inv.T.tr _

/-- **C75 (a thread's functions).** When a thread has exited, every function it ever registered has been called. -/
theorem C75_thread_all_called (h : UReach c u) {t : Tid} {f : FnId} (hr : .released t ∈ u.s.log) (hf : .tReg t f ∈ u.s.log) : TCalled u.s.log t f :=
  h.inv.R.all t f hr hf

/-- **C75 (a thread's functions).** Nothing happens on a thread after its memory is released. -/
theorem C75_before_release (h : UReach c u) {t : Tid} {x : Ev} (hx : x.on = some t) : Whenever u.s.log x fun old => .released t ∉ old :=
  fun _ _ hl => (h.inv.O.1.at hl).1 t hx

/-- **C75 (a thread's functions).** When an `exit` call goes on to the program's functions, every function the thread registered before has been called, by this
call or by one that a panic has left. -/
theorem C75_exit_all_called (h : UReach c u) (t : Tid) (e : Exit) :
    Whenever u.s.log (.tDone t e) fun old => ∀ f, .tReg t f ∈ old → TCalled old t f :=
  whenever_of h.inv.T.tr _

/-- **C75 (the program's functions).** Whenever an `exit` call takes a function off the list, the function was registered, had not been taken before, and every
function registered after it has already been taken. -/
theorem C75_program_lifo (h : UReach c u) (t : Tid) (e : Exit) (f : FnId) :
    Whenever u.s.log (.pTake t e f) fun old =>
      PRegd old f ∧ ¬ PTaken old f ∧ ∀ g t₁ t₂, Later old (.pReg t₁ g) (.pReg t₂ f) → PTaken old g :=
  whenever_of h.inv.P.tr _

/-- **C75 (the program's functions).** A function is called only by the `exit` call that took it, and only once. -/
theorem C75_program_once (h : UReach c u) (t : Tid) (e : Exit) (f : FnId) :
    Whenever u.s.log (.pCall t e f) fun old => .pTake t e f ∈ old ∧ ¬ PCalled old f :=
  whenever_of h.inv.P.tr _

/-- **C75 (the program's functions).** When an `exit` call has finished the program's functions, every registered function has been taken, and those this thread took
have been called. -/
theorem C75_program_all (h : UReach c u) (t : Tid) (e : Exit) :
    Whenever u.s.log (.pDone t e) fun old =>
      (∀ f, PRegd old f → PTaken old f) ∧ ∀ e' f, .pTake t e' f ∈ old → .pCall t e' f ∈ old :=
  fun _ _ hl => have := h.inv.P.tr.at hl; ⟨this.1, this.2.1⟩

theorem UReach.course {n m : Nat} (hok : c.Ok n m) (h : UReach c u) {e : Exit} {x : Ev}
    (hx : x ∈ u.s.log) (he : x.exit? = some e) : CourseOk c m u.s.log e := (h.einv hok).course hx he

/-- **C75 (`exit`).** What an `exit(v)` call has done is an initial part of: the thread's functions, the program's, the `.fini_array` functions last to first, the end of
the process with status `v`.  That goes for the calls that a panic has left too. -/
theorem C75_course {n m : Nat} (hok : c.Ok n m) (h : UReach c u) {t : Tid} {e : Exit} {v : Int} (hb : .exitBegin t e v ∈ u.s.log) :
    ∃ ts ps, course e u.s.log <+: exitCourse c m t e v ts ps := (h.course hok hb rfl).exit hb

/-- **C75 (`immediate_exit`).** -/
theorem C75_immediate {n m : Nat} (hok : c.Ok n m) (h : UReach c u) {t : Tid} {e : Exit} {v : Int} (hb : .immBegin t e v ∈ u.s.log) :
    course e u.s.log <+: [.immBegin t e v, .group t e v] := (h.course hok hb rfl).imm hb

/-- **C75 (`exit`).** When the process ends with a status, it is the status of the last call of `exit` or `immediate_exit` on that thread that no panic has left, and
all of the phases have been gone through if it was `exit`. -/
theorem C75_status {n m : Nat} (hok : c.Ok n m) (h : UReach c u) (t : Tid) (e : Exit) (v : Int) :
    Whenever u.s.log (.group t e v) fun old =>
      (course e old = [.immBegin t e v] ∨ ∃ ts ps, course e old ++ [.group t e v] = exitCourse c m t e v ts ps) ∧
      ∀ e' v', .exitBegin t e' v' ∈ old ∨ .immBegin t e' v' ∈ old → e' ≤ e ∨ u.Left e' :=
  fun _ _ hl => have := (h.einv hok).tr.at hl; ⟨this.2.1, fun e' v' hb => (this.2.2 e' v' hb).symm⟩

/-- **C75 (`exit`).** A call that a panic has left does not end the process, and gets no further than its thread's and the program's functions. -/
theorem C75_left_ends_nothing {n m : Nat} (hok : c.Ok n m) (h : UReach c u) {e : Exit} (hl : u.Left e) :
    (∀ t v, .group t e v ∉ u.s.log) ∧ (∀ t, .pDone t e ∉ u.s.log) ∧ ∀ t p, .fini t e p ∉ u.s.log := by
  obtain ⟨-, -, t', v', ⟨ts, hc⟩ | ⟨ts, ps, hc⟩⟩ := (h.einv hok).left e hl
  · refine ⟨fun t v hx => ?_, fun t hx => ?_, fun t p hx => ?_⟩ <;>
      (have := mem_course hx rfl; rw [hc] at this; simp [thrPart] at this)
  · refine ⟨fun t v hx => ?_, fun t hx => ?_, fun t p hx => ?_⟩ <;>
      (have := mem_course hx rfl; rw [hc] at this; simp [progPart, thrPart] at this)

/-- **C75 (`exit`).** The end of the process is the last event. -/
theorem C75_end (h : UReach c u) (t : Tid) (e : Exit) (v : Int) (x : Ev) : Whenever u.s.log x fun old => .group t e v ∉ old :=
  fun _ _ hl => (h.inv.O.1.at hl).2 t e v

/-- **C75 (`.fini_array`).** With threads and program `at_exit` support, each `.fini_array` function is called at most once, last to first, however many calls of
`exit` panics have left. -/
theorem C75_fini_once {n m : Nat} (hok : c.Ok n m) (h : UReach c u) (h1 : c.thread = true) (h2 : c.programAtExit = true) :
    finiCalls u.s.log <+: finiOrder c m ∧ (finiCalls u.s.log).Nodup :=
  fini_once_of hok h.inv.P.tr (fun hx he => h.course hok hx he) h1 h2

/-- **C75 (registrations).** Once an `exit` call has finished the program's functions, no registration is made or reported as made, and those that were have been taken. -/
theorem C75_no_drop (h : UReach c u) (hc : c.thread = true) :
    (∀ t f, Whenever u.s.log (.pReg t f) fun old => ¬ PFinished old) ∧
    (∀ t f, Whenever u.s.log (.pRegRet t f) fun old => .pReg t f ∈ old ∧ ¬ PFinished old) ∧
    (PFinished u.s.log → ∀ t f, .pRegRet t f ∈ u.s.log → PTaken u.s.log f) :=
  ⟨fun _ _ _ _ hl => (h.inv.P.tr.at hl).2 hc, fun _ _ _ _ hl => have := h.inv.W.tr.at hl; ⟨this.1, this.2 hc⟩,
    fun hf _ _ hr => no_drop_of h.inv.W h.inv.P hc hf hr⟩

theorem urun_acts (acts : List Action) : ∀ {u : UState} {s' : State}, u.aborted = false → run c u.s acts = some s' →
    urun c u (acts.map .act) = some { u with s := s' } := by
  induction acts with
  | nil => intro u s' _ h; simp only [run, Option.some.injEq] at h; subst h; rfl
  | cons x xs ih =>
    intro u s' ha h
    simp only [run, Option.bind_eq_some_iff] at h
    obtain ⟨s1, h1, h2⟩ := h
    simp only [List.map_cons, urun]
    have : ustep c u (.act x) = some { u with s := s1 } := by simp [ustep, ha, h1]
    rw [this, Option.bind_some]
    exact ih (u := { u with s := s1 }) ha h2

/-- **C75 (registrations).** `program::at_exit` does not hang: no panic leaves the lock locked.  As in C29, within five further steps of origin's own code the call has
returned and the function is registered, or some `exit` call has finished the program's functions. -/
theorem C75_at_exit_completes (h : UReach c u) (ha : u.aborted = false) (hd : u.s.dead = false) (hp : c.programAtExit = true)
    {t : Tid} {fn : Fn} (hr : Running u.s t fn) (hf : ¬ PFinished u.s.log) :
    ∃ acts u', urun c u (.act (.regProg t) :: acts) = some u' ∧ acts.length ≤ 5 ∧ (∀ a ∈ acts, ∃ t', a = .act (.step t')) ∧
      ((∃ f, ¬ PRegd u.s.log f ∧ .pReg t f ∈ u'.s.log ∧ .pRegRet t f ∈ u'.s.log) ∨ PFinished u'.s.log) := by
  obtain ⟨rest, hs⟩ := hr
  obtain ⟨acts, s', h1, h2, h3, h4⟩ := at_exit_completes h.inv.S h.inv.L h.inv.P.fresh hd hp hs hf
  refine ⟨acts.map .act, _, urun_acts (.regProg t :: acts) ha h1, by simpa using h2, fun a ha => ?_, h4⟩
  obtain ⟨x, hx, rfl⟩ := List.mem_map.mp ha
  obtain ⟨t', rfl⟩ := h3 x hx
  exact ⟨t', rfl⟩

/-- **C75 (start).** Startup happens in order, whatever panics: see C34. -/
theorem C75_startup {n m : Nat} (hok : c.Ok n m) (h : UReach c u) :
    (∃ v, boots u.s.log <+: bootCourse c n v) ∧ ∀ v, .mainRet v ∈ u.s.log → boots u.s.log = bootCourse c n v := startup_of (h.binv hok)

theorem C75_exits_with_result {n m : Nat} (hok : c.Ok n m) (h : UReach c u) (newer older : List Ev) (v : Int)
    (hl : u.s.log = newer ++ .mainRet v :: older) : ∃ newer' e, newer = newer' ++ [.exitBegin 0 e v] := (h.binv hok).mr newer older v hl

/-- **C75 (progress).** A thread in origin's own code can always go on, except while it waits for the lock; and then another thread holds the lock, and can go on, or some
thread has finished the program's functions. -/
theorem C75_progress (h : UReach c u) (ha : u.aborted = false) (hd : u.s.dead = false) {t : Tid} (hs : u.s.stk t ≠ []) (hu : ∀ fn, ¬ Running u.s t fn) :
    (∃ u', ustep c u (.act (.step t)) = some u') ∨ (∃ t' u', t' ≠ t ∧ ustep c u (.act (.step t')) = some u') ∨ PFinished u.s.log := by
  cases hst : u.s.stk t with
  | nil => exact absurd hst hs
  | cons fr rest =>
    have conv : ∀ {x s'}, step c u.s x = some s' → ∃ u', ustep c u (.act x) = some u' := fun {x s'} hx => ⟨{ u with s := s' }, by simp [ustep, ha, hx]⟩
    rcases progress_of h.inv.S h.inv.L hd hst (by rintro fn rfl; exact hu fn ⟨rest, hst⟩) with ⟨s', h1⟩ | ⟨t', s', h1, h2⟩ | h1
    · exact .inl (conv h1)
    · obtain ⟨u', h3⟩ := conv h2; exact .inr (.inl ⟨t', u', h1, h3⟩)
    · exact .inr (.inr h1)

/-! ## What a panic does -/

/-- **C75 (a panic happens once).** Each function that panicked out of an `exit` call was registered and called, and no function did so twice. -/
theorem C75_panics_once (h : UReach c u) : (u.left.map Prod.snd).Nodup ∧ ∀ e fn, (e, fn) ∈ u.left →
    ∃ f, Regd u.s.log f ∧ ((fn = .tdtor f ∧ ∃ t, TCalled u.s.log t f) ∨ (fn = .pdtor f ∧ PCalled u.s.log f)) := by
  have H := h.hinv
  refine ⟨H.lnd, fun e fn hm => ?_⟩
  obtain ⟨⟨f, hf⟩, hc⟩ := H.lcalled fn (List.mem_map.mpr ⟨(e, fn), hm, rfl⟩)
  refine ⟨f, called_regd h.inv hf hc, ?_⟩
  rcases hf with rfl | rfl
  · exact .inl ⟨rfl, hc⟩
  · exact .inr ⟨rfl, hc⟩

theorem tcall_unique {l : List Ev} (h : TraceOk TOk l) {t : Tid} {o o' : Option Exit} {f : FnId} (h1 : Ev.tCall t o f ∈ l) (h2 : Ev.tCall t o' f ∈ l) :
    o = o' := by
  induction l with
  | nil => cases h1
  | cons x l ih =>
    rcases List.mem_cons.mp h1 with k1 | k1 <;> rcases List.mem_cons.mp h2 with k2 | k2
    · rw [← k1] at k2; injection k2 with _ k2; exact k2.symm
    · subst k1; exact absurd ⟨_, k2⟩ h.1.2.1
    · subst k2; exact absurd ⟨_, k1⟩ h.1.2.1
    · exact ih h.2 k1 k2

theorem pcall_unique {l : List Ev} (h : TraceOk (POk c) l) {t t' : Tid} {e e' : Exit} {f : FnId} (h1 : Ev.pCall t e f ∈ l) (h2 : Ev.pCall t' e' f ∈ l) :
    e = e' := by
  induction l with
  | nil => cases h1
  | cons x l ih =>
    rcases List.mem_cons.mp h1 with k1 | k1 <;> rcases List.mem_cons.mp h2 with k2 | k2
    · rw [← k1] at k2; injection k2 with _ k2; exact k2.symm
    · subst k1; exact absurd ⟨_, _, k2⟩ h.1.2
    · subst k2; exact absurd ⟨_, _, k1⟩ h.1.2
    · exact ih h.2 k1 k2

/-- Where a panic gets to. -/
theorem panic_cases {n m : Nat} (hok : c.Ok n m) (h : UReach c u) {t : Tid} {fn : Fn} {rest : List Frame} (hs : u.s.stk t = .user fn :: rest) :
    (∃ e g below fr, rest = fr :: .user g :: below ∧ fr.inst = some e ∧ CalledByExit u.s.log t e fn ∧ ¬ FromMain u.s.log e ∧
      u.unwind t fn rest = { u with s := u.s.setStk t (.user g :: below), left := (e, fn) :: u.left }) ∨
    (¬ Catchable u.s.log t fn ∧ u.unwind t fn rest = { u with aborted := true }) := by
  have N := h.inv.N t
  have L := h.linked hok t
  rw [hs] at N L
  have no : ∀ {fn}, (∀ e, ¬ CalledByExit u.s.log t e fn) → ¬ Catchable u.s.log t fn := fun {fn} h ⟨e, h1, _⟩ => h e h1
  cases fn with
  | main => exact .inr ⟨no (fun e h => h), by unfold UState.unwind; rfl⟩
  | start => exact .inr ⟨no (fun e h => h), by unfold UState.unwind; rfl⟩
  | ctor p => exact .inr ⟨no (fun e h => h), by unfold UState.unwind; rfl⟩
  | fini p => exact .inr ⟨no (fun e h => h), by unfold UState.unwind; rfl⟩
  | tdtor f =>
    obtain ⟨L0, ⟨fr', r', hr', hcall⟩, -⟩ := L
    rcases N.2 with ⟨r, rfl⟩ | ⟨e, v, r, rfl⟩
    · injection hr' with hr' _; subst hr'
      refine .inr ⟨no (fun e h1 => ?_), by unfold UState.unwind; rfl⟩
      have := tcall_unique h.inv.T.tr hcall h1
      cases this
    · injection hr' with hr' _; subst hr'
      obtain ⟨h2, h3⟩ := L0.2.2 e rfl
      rcases h2 with rfl | ⟨g, below, rfl⟩
      · refine .inr ⟨?_, by unfold UState.unwind; rfl⟩
        rintro ⟨e', h4, h5⟩
        have := tcall_unique h.inv.T.tr hcall h4
        injection this with this; subst this
        exact h5 (h3.mp rfl)
      · exact .inl ⟨e, g, below, _, rfl, rfl, hcall, (fun h4 => nomatch (h3.mpr h4)), rfl⟩
  | pdtor f =>
    obtain ⟨L0, ⟨fr', r', e', hr', he', hcall⟩, -⟩ := L
    obtain ⟨e, v, r, rfl⟩ := N.2
    injection hr' with hr' _; subst hr'
    injection he' with he'; subst he'
    obtain ⟨h2, h3⟩ := L0.2.2 e rfl
    rcases h2 with rfl | ⟨g, below, rfl⟩
    · refine .inr ⟨?_, by unfold UState.unwind; rfl⟩
      rintro ⟨e', h4, h5⟩
      have := pcall_unique h.inv.P.tr hcall h4
      subst this
      exact h5 (h3.mp rfl)
    · exact .inl ⟨e, g, below, _, rfl, rfl, hcall, (fun h4 => nomatch (h3.mpr h4)), rfl⟩

theorem ustep_panic (ha : u.aborted = false) (hd : u.s.dead = false) {t : Tid} {fn : Fn} {rest : List Frame} (hs : u.s.stk t = .user fn :: rest) :
    ustep c u (.panic t) = some (u.unwind t fn rest) := by simp [ustep, ha, hd, hs]

/-- **C75 (a panic that can be caught).** If a function registered with `at_exit` panics that was called by an `exit` call `e` made by user code (not by origin, when
`origin_main` returned): the panic gets to the function `g` that called `exit`, which runs on.  Only that call of `exit` is gone from the thread's stack; the history, the
lists of registered functions, the lock and the other threads are as they were. -/
theorem C75_panic_caught {n m : Nat} (hok : c.Ok n m) (h : UReach c u) (ha : u.aborted = false) (hd : u.s.dead = false) {t : Tid} {fn : Fn}
    (hr : Running u.s t fn) (hc : Catchable u.s.log t fn) :
    ∃ u' e g fr, ustep c u (.panic t) = some u' ∧ CalledByExit u.s.log t e fn ∧ fr.inst = some e ∧ u.s.stk t = .user fn :: fr :: u'.s.stk t ∧
      Running u'.s t g ∧ u'.left = (e, fn) :: u.left ∧ u'.aborted = false ∧ u'.s.dead = false ∧ (∀ t', t' ≠ t → u'.s.stk t' = u.s.stk t') ∧
      u'.s.log = u.s.log ∧ u'.s.tdtors = u.s.tdtors ∧ u'.s.dtors = u.s.dtors ∧ u'.s.lock = u.s.lock := by
  obtain ⟨rest, hs⟩ := hr
  rcases panic_cases hok h hs with ⟨e, g, below, fr, rfl, h1, h2, -, h4⟩ | ⟨h1, -⟩
  · refine ⟨{ u with s := u.s.setStk t (.user g :: below), left := (e, fn) :: u.left }, e, g, fr, by rw [ustep_panic ha hd hs, h4], h2, h1, ?_, ⟨below, by simp [State.setStk]⟩, rfl, ha, hd, fun t' ht => by simp [State.setStk, ht],
      rfl, rfl, rfl, rfl⟩
    rw [hs]; simp [State.setStk]
  · exact absurd hc h1

/-- **C75 (a panic that cannot be caught).** Any other panic ends the process at once: it is aborted, and nothing else happens. -/
theorem C75_panic_aborts {n m : Nat} (hok : c.Ok n m) (h : UReach c u) (ha : u.aborted = false) (hd : u.s.dead = false) {t : Tid} {fn : Fn}
    (hr : Running u.s t fn) (hc : ¬ Catchable u.s.log t fn) :
    ∃ u', ustep c u (.panic t) = some u' ∧ u'.aborted = true ∧ u'.s = u.s ∧ u'.left = u.left ∧ ∀ x, ustep c u' x = none := by
  obtain ⟨rest, hs⟩ := hr
  rcases panic_cases hok h hs with ⟨e, g, below, fr, rfl, h1, h2, h3, -⟩ | ⟨-, h1⟩
  · exact absurd ⟨e, h2, h3⟩ hc
  · exact ⟨{ u with aborted := true }, by rw [ustep_panic ha hd hs, h1], rfl, rfl, rfl, fun x => by simp [ustep]⟩

/-- **C75 (without panics nothing changes).** The executions without panics are those the other process properties are about. -/
theorem C75_no_panic (acts : List Action) {u : UState} :
    urun c uinit (acts.map .act) = some u ↔ u.aborted = false ∧ u.left = [] ∧ run c init acts = some u.s := by
  have key : ∀ (acts : List Action) (v : UState), v.aborted = false → urun c v (acts.map .act) = (run c v.s acts).map fun s' => { v with s := s' } := by
    intro acts
    induction acts with
    | nil => intro v _; rfl
    | cons x xs ih =>
      intro v hv
      simp only [List.map_cons, urun, run, ustep, hv, Bool.false_eq_true, if_false]
      cases hs : step c v.s x with
      | none => rfl
      | some s1 => simp only [Option.map_some, Option.bind_some]; have := ih { v with s := s1 } hv; simpa only [hv] using this
  rw [key acts uinit rfl, Option.map_eq_some_iff]
  constructor
  · rintro ⟨s', h1, rfl⟩; exact ⟨rfl, rfl, h1⟩
  · rintro ⟨h1, h2, h3⟩
    refine ⟨u.s, h3, ?_⟩
    cases u; simp only at h1 h2; subst h1; subst h2; rfl

/-! ## Executions end, with panics -/

theorem UExec.moment (X : UExec c st act) {e : Ev} {n : Nat} (he : e ∈ (st n).s.log) :
    ∃ k x s', k < n ∧ act k = some (.act x) ∧ step c (st k).s x = some s' ∧ (st (k + 1)).s = s' ∧ e ∉ (st k).s.log ∧ e ∈ s'.log := by
  induction n with
  | zero => rw [X.start] at he; cases he
  | succ n ih =>
    by_cases h : e ∈ (st n).s.log
    · obtain ⟨k, x, s', h1, h2⟩ := ih h
      exact ⟨k, x, s', by omega, h2⟩
    · cases ha : act n with
      | none => rw [X.idle n ha] at he; exact absurd he h
      | some y =>
        have hs := X.next n y ha
        have T := (ustep_tr hs).2
        generalize hu : st (n + 1) = u' at *
        cases T with
        | act x s' hs1 => exact ⟨n, x, s', by omega, ha, hs1, by rw [hu], h, he⟩
        | leave => exact absurd he h
        | abort => exact absurd he h

/-- **C75 (`exit` ends the process, or a panic leaves it).** On every fair schedule, if the program registers finitely many functions, none of the functions origin calls
runs for ever (panicking is a way to end) and `.fini_array` functions call neither `exit` nor `program::at_exit`: once a thread has called `exit`, the process ends, or
that call is left by a panic. -/
theorem C75_exit_ends {n m : Nat} (hok : c.Ok n m) (X : UExec c st act) (F : UFair c st act) (H : UFinite Fn.handler st act) (Q : UQuietFini st act)
    (M : UFinitelyMany st) {i : Nat} {t : Tid} {e : Exit} {v : Int} (h : .exitBegin t e v ∈ (st i).s.log) :
    ∃ j, i ≤ j ∧ ((st j).Over ∨ (st j).Left e) := by
  obtain ⟨k, x, s', hk, ha, hs, hk1, h0, h1⟩ := X.moment h
  obtain ⟨rest, hst⟩ := began hs h0 h1
  obtain ⟨j, hj, h2⟩ := way_ends hok X F H Q M (i := k + 1) (k := .exit) (t := t) (.inl ⟨5, by rw [hk1, hst]; exact .exitThr _ _ _⟩)
    (fun j => (st j).Left e) (fun j hj _ _ hl _ => by
      have hb : Ev.exitBegin t e v ∈ (st j).s.log := X.log_stays hj (by rw [hk1]; exact h1)
      have := ((X.reach j).einv hok).begun t e v (.inl hb)
      exact List.ne_nil_of_mem (this.resolve_left hl))
  have left_stays : ∀ {a b}, a ≤ b → (st a).Left e → (st b).Left e := fun {a b} hab hl =>
    X.keeps (P := fun u => u.Left e) (fun u u' x h hs => by
      obtain ⟨fn, h⟩ := h
      cases (ustep_tr hs).2 with
      | act => exact ⟨fn, h⟩
      | leave => exact ⟨fn, List.mem_cons_of_mem _ h⟩
      | abort => exact ⟨fn, h⟩) hab hl
  refine ⟨max i j, Nat.le_max_left _ _, ?_⟩
  rcases h2 with h2 | h2 | h2
  · exact .inl (X.over_stays (Nat.le_max_right _ _) h2)
  · exact absurd h2 id
  · exact .inr (left_stays (Nat.le_max_right _ _) h2)

theorem Tr.begins (tr : Tr c s s') : ∃ evs, s'.log = evs ++ s.log ∧ ∀ t e v, Ev.exitBegin t e v ∈ evs → e = s.nextE := by
  cases tr with
  | regLock t rest s1 hs' ha => exact ⟨[], by simp [State.setStk, acquire_fields ha], by simp⟩
  | exitLock t rest e v s1 hs' _ ha => exact ⟨[], by simp [State.setStk, acquire_fields ha], by simp⟩
  | regUnlock t rest f hs' => exact ⟨[_], by simp [State.ev, State.setStk]; rfl, by simp⟩
  | exitUnlock t rest e v f hs' => exact ⟨[], by simp [State.ev, State.setStk], by simp⟩
  | retMain t rest v hs' => exact ⟨[_, _], rfl, by simp [State.ev]; intros; assumption⟩
  | exit t fn rest v hs' => exact ⟨[_], rfl, by simp; intros; assumption⟩
  | regProg t fn rest hs' _ => exact ⟨[], rfl, by simp⟩
  | retStart t rest hs' => exact ⟨[], rfl, by simp⟩
  | ret t fn rest hs' _ _ => exact ⟨[], rfl, by simp⟩
  | exitFiniEnd t rest e v hs' => exact ⟨[], rfl, by simp⟩
  | _ => exact ⟨[_], rfl, by simp⟩

theorem FromMain.append {l evs : List Ev} {e : Exit} (h : ∀ v, Ev.exitBegin 0 e v ∉ evs) : FromMain (evs ++ l) e ↔ FromMain l e := by
  induction evs with
  | nil => exact Iff.rfl
  | cons x evs ih =>
    rw [List.cons_append, FromMain.cons (fun v hv => h v (hv ▸ List.mem_cons_self))]
    exact ih fun v hv => h v (List.mem_cons_of_mem _ hv)

/-- **C75 (`origin_main`'s return).** The `exit` call that is made when `origin_main` has returned is not left by a panic. -/
theorem C75_main_exit_not_left {n m : Nat} (hok : c.Ok n m) (h : UReach c u) {e : Exit} (hm : FromMain u.s.log e) : ¬ u.Left e := by
  induction h with
  | init => rintro ⟨fn, h⟩; cases h
  | @step u u' x hr hs ih =>
    cases (ustep_tr hs).2 with
    | abort => exact ih hm
    | act y s' hs1 =>
      intro hl
      obtain ⟨evs, he, hb⟩ := (step_tr hs1).2.begins
      have hlt := ((hr.einv hok).left e hl).1
      refine ih ?_ hl
      simp only [he] at hm
      exact (FromMain.append (fun v hv => by rw [hb _ _ _ hv] at hlt; exact Nat.lt_irrefl _ hlt)).mp hm
    | leave t e' fn g below hl =>
      rintro ⟨fn', h⟩
      rcases List.mem_cons.mp h with h | h
      · injection h with h1 h2
        subst h1
        obtain ⟨fr, hst, hi, -, -, -, -⟩ := hl.shape
        have L := hr.linked hok t
        rw [hst] at L
        exact nomatch (L.1.2.2 e hi).2.mpr hm
      · exact ih hm ⟨fn', h⟩

/-- **C75 (`origin_main`'s return ends the process).** A panic does not get past that call of `exit`. -/
theorem C75_main_return_ends {n m : Nat} (hok : c.Ok n m) (X : UExec c st act) (F : UFair c st act) (H : UFinite Fn.handler st act) (Q : UQuietFini st act)
    (M : UFinitelyMany st) {i : Nat} {v : Int} (h : .mainRet v ∈ (st i).s.log) : ∃ j, i ≤ j ∧ (st j).Over := by
  obtain ⟨newer, older, hl⟩ := List.append_of_mem h
  obtain ⟨newer', e, hn⟩ := C75_exits_with_result hok (X.reach i) newer older v hl
  have hm : FromMain (st i).s.log e := ⟨newer', older, v, by rw [hl, hn]; simp⟩
  obtain ⟨j, hj, h1 | h1⟩ := C75_exit_ends hok X F H Q M (t := 0) (e := e) (v := v) (i := i) (by rw [hl, hn]; simp)
  · exact ⟨j, hj, h1⟩
  · exfalso
    -- the call is known to come from `origin_main` for ever
    have hm' : FromMain (st j).s.log e := X.keeps (P := fun u => FromMain u.s.log e) (fun u u' x h hs => by
      cases (ustep_tr hs).2 with
      | act y s' hs1 =>
        obtain ⟨evs, he, -⟩ := (step_tr hs1).2.begins
        obtain ⟨n1, o1, v1, h⟩ := h
        exact ⟨evs ++ n1, o1, v1, by simp only [he, h]; simp⟩
      | leave => exact h
      | abort => exact h) hj hm
    exact C75_main_exit_not_left hok (X.reach j) hm' h1

/-- **C75 (`immediate_exit` ends the process).** -/
theorem C75_immediate_ends (X : UExec c st act) (F : UFair c st act) {i : Nat} {t : Tid} {e : Exit} {v : Int}
    (h : .immBegin t e v ∈ (st i).s.log) : ∃ j, i ≤ j ∧ (st j).Over := by
  obtain ⟨k, x, s', hk, ha, hs, hk1, h0, h1⟩ := X.moment h
  obtain ⟨rest, hst⟩ := began_imm hs h0 h1
  apply Classical.byContradiction
  intro hno
  have nover : ∀ j, ¬ (st j).Over := fun j h => hno ⟨max i j, Nat.le_max_left _ _, X.over_stays (Nat.le_max_right _ _) h⟩
  have nab : ∀ j, (st j).aborted = false := fun j => by
    cases h : (st j).aborted with
    | false => rfl
    | true => exact absurd (.inl h) (nover j)
  have ndead : ∀ j, (st j).s.dead = false := fun j => by
    cases h : (st j).s.dead with
    | false => rfl
    | true => exact absurd (.inr ((X.reach j).ended.mp h)) (nover j)
  -- the thread stays where it is until it goes on, and then the process ends
  have stay : ∀ j, k + 1 ≤ j → (st j).s.stk t = .exitImm e v :: rest := by
    intro j hj
    induction hj with
    | refl => rw [hk1]; exact hst
    | @step j hj ih =>
      cases hj' : act j with
      | none => rw [X.idle j hj']; exact ih
      | some y =>
        have hy := X.next j y hj'
        have T := (ustep_tr hy).2
        have hd := ndead (j + 1)
        generalize st (j + 1) = u' at *
        cases T with
        | abort => exact ih
        | leave t' e' fn g below hl =>
          obtain ⟨fr, hst', -, -, -, -, -⟩ := hl.shape
          simp only [State.setStk]
          split
          · next h => subst h; rw [ih] at hst'; cases hst'
          · exact ih
        | act z s1 hs1 =>
          by_cases hz : z.tid = t
          · exfalso
            subst hz
            by_cases hzs : z = .step z.tid
            · have hs1 : step c (st j).s (.step z.tid) = some s1 := by rw [← hzs]; exact hs1
              have ht : (Action.step z.tid).tid = z.tid := rfl
              simp only [step, ndead j, ht, ih, frameStep] at hs1
              simp at hs1
              have hd : s1.dead = false := hd
              rw [← hs1] at hd; cases hd
            · simp [step, ih, hzs] at hs1
          · show s1.stk t = _
            rw [(stk_other (X.reach j).inv.S hs1 hz (by rw [ih]; simp)).1]; exact ih
  obtain ⟨j, hj, h2 | h2⟩ := F t (k + 1)
  · have := X.next j _ h2
    have hd := ndead (j + 1)
    generalize st (j + 1) = u' at *
    simp [ustep, nab j, step, ndead j, Action.tid, stay j hj, frameStep] at this
    rw [← this] at hd; cases hd
  · simp [ustep, nab j, step, ndead j, Action.tid, stay j hj, frameStep] at h2

/-- **C75 (threads finish).** Under the same assumptions, a thread whose function has returned runs its `at_exit` functions to the end and is gone, unless the process
ends first.  (Panics in calls of `exit` that its `at_exit` functions make and catch do not change that.) -/
theorem C75_thread_finishes {n m : Nat} (hok : c.Ok n m) (X : UExec c st act) (F : UFair c st act) (H : UFinite Fn.handler st act) (Q : UQuietFini st act)
    (M : UFinitelyMany st) {i : Nat} {t : Tid} {v : Int} (hr : Running (st i).s t .start) (ha : act i = some (.act (.ret t v))) :
    ∃ j, i ≤ j ∧ (.released t ∈ (st j).s.log ∨ (st j).Over) := by
  obtain ⟨rest, hr⟩ := hr
  have hs := X.next i _ ha
  have hk : (st (i + 1)).s.stk t = .thrLoop :: rest := by
    generalize st (i + 1) = u' at *
    cases (ustep_tr hs).2 with
    | act x s' hs1 =>
      have h := step_user hs1 hr
      simp only [userStep, Action.tid] at h
      injection h with h
      show s'.stk t = _
      rw [← h]; simp [State.setStk]
  obtain ⟨j, hj, h2⟩ := way_ends hok X F H Q M (i := i + 1) (k := .thr) (t := t) (.inl ⟨5, by rw [hk]; exact .thrLoop _ rfl⟩) (fun _ => False)
    (fun j hj _ hn _ _ => (X.thr_keeps hj (by rw [hk]; exact List.mem_cons_self)).resolve_right hn)
  rcases h2 with h2 | h2 | h2
  · exact ⟨j, by omega, .inr h2⟩
  · exact ⟨j, by omega, .inl h2⟩
  · exact absurd h2 id

/-- **C75 (startup reaches `origin_main`).** -/
theorem C75_main_called {n m : Nat} (hok : c.Ok n m) (X : UExec c st act) (F : UFair c st act) (H : UFinite Fn.handler st act) (Q : UQuietFini st act)
    (M : UFinitelyMany st) : ∃ j, .main c.args ∈ (st j).s.log ∨ (st j).Over := by
  have hj : ∃ j, c.initFirst + j * c.ws = c.initEnd := by
    unfold Cfg.initFirst
    split
    · next h => exact ⟨n, (hok.init h).symm⟩
    · exact ⟨0, by simp⟩
  obtain ⟨a, ha⟩ := hj
  obtain ⟨j, hj, h2⟩ := way_ends hok X F H Q M (i := 0) (k := .boot) (t := 0) (.inl ⟨4 * a + 6, by rw [X.start]; exact .entry _ _ rfl ha⟩) (fun _ => False)
    (fun j _ _ hn _ hu => by
      obtain ⟨b, hb, hB⟩ := ((X.reach j).binv hok).base
      have hmem := List.mem_of_getLast? hb
      have noMain : ∀ {l : List Ev}, boots (st j).s.log = l → Ev.main c.args ∉ l := fun {l} hl hm => hn (by
        rw [← hl] at hm; simp [boots] at hm; exact hm.1)
      cases b with
      | init p =>
        obtain ⟨k, hk, hp, -⟩ := hB
        refine ⟨p, n - k, hmem, ?_⟩
        subst hp
        have : k * c.ws + (n - k) * c.ws = n * c.ws := by rw [← Nat.add_mul]; congr 1; omega
        split
        · next hi => rw [hok.init hi]; omega
        · next hi =>
          have := hok.init0 (by simpa using hi)
          subst this
          have : k = 0 := by omega
          subst this; simp
      | entry =>
        exfalso
        obtain ⟨fn, rest, hu⟩ := hu
        have S := (X.reach j).inv.S.shape 0
        rw [hu] at hb hmem S
        rcases List.mem_cons.mp hmem with h | h
        · cases h
        · have := S.tail_under _ h; cases this
      | user fn =>
        cases fn with
        | main => exact absurd (by simp) (noMain (l := _) hB)
        | _ => obtain ⟨-, v, hB⟩ := hB; exact absurd (by simp) (noMain hB)
      | _ => obtain ⟨-, v, hB⟩ := hB; exact absurd (by simp) (noMain hB))
  rcases h2 with h2 | h2 | h2
  · exact ⟨j, .inr h2⟩
  · exact ⟨j, .inl h2⟩
  · exact absurd h2 id

/-! ## Concrete histories -/

theorem ureach_urun (xs : List UAct) : ∀ {u u' : UState}, UReach c u → urun c u xs = some u' → UReach c u' := by
  induction xs with
  | nil => intro u u' R h; simp only [urun, Option.some.injEq] at h; subst h; exact R
  | cons x xs ih =>
    intro u u' R h
    simp only [urun, Option.bind_eq_some_iff] at h
    obtain ⟨u1, h1, h2⟩ := h
    exact ih (.step R h1) h2

/-- Actions without a panic. -/
def acts (xs : List Action) : List UAct := xs.map .act

/-- `origin_main` registers functions 0 and 1 for the program and 2 for the thread, and calls `exit(3)`; 2 panics; `origin_main` catches it and calls
`exit(4)`; 1 panics; `origin_main` catches that too, registers 3 for the program, and calls `exit(5)`. -/
def demoPanics : List UAct :=
  acts (toMain ++ [.regProg 0] ++ steps 0 3 ++ [.regProg 0] ++ steps 0 3 ++ [.regThr 0, .exit 0 3, .step 0]) ++ [.panic 0] ++
  acts ([.exit 0 4] ++ steps 0 5) ++ [.panic 0] ++
  acts ([.regProg 0] ++ steps 0 3 ++ [.exit 0 5] ++ steps 0 5 ++ [.ret 0 0] ++ steps 0 4 ++ [.ret 0 0] ++ steps 0 3 ++ [.ret 0 0, .step 0, .ret 0 0] ++ steps 0 2)

/-- All four functions are called once, and the process ends with the status of the last call. -/
theorem demoPanics_log : (urun demo uinit demoPanics).map (fun u => (u.s.log.reverse, u.left, u.aborted)) = some
    ([.runtimeInit, .ctor 100 demo.args, .ctor 108 demo.args, .main demo.args, .pReg 0 0, .pRegRet 0 0, .pReg 0 1, .pRegRet 0 1, .tReg 0 2,
      .exitBegin 0 0 3, .tCall 0 (some 0) 2, .exitBegin 0 1 4, .tDone 0 1, .pTake 0 1 1, .pCall 0 1 1, .pReg 0 3, .pRegRet 0 3, .exitBegin 0 2 5, .tDone 0 2,
      .pTake 0 2 3, .pCall 0 2 3, .pTake 0 2 0, .pCall 0 2 0, .pDone 0 2, .fini 0 2 208, .fini 0 2 200, .group 0 2 5],
      [(1, .pdtor 1), (0, .tdtor 2)], false) := by decide

example : ∃ u, UReach demo u ∧ .group 0 2 5 ∈ u.s.log ∧ u.Left 0 ∧ u.Left 1 ∧ PCalled u.s.log 0 ∧ PCalled u.s.log 1 ∧ PCalled u.s.log 3 ∧ TCalled u.s.log 0 2 := by
  have h := demoPanics_log
  rw [Option.map_eq_some_iff] at h
  obtain ⟨u, h1, h2⟩ := h
  simp only [Prod.mk.injEq] at h2
  obtain ⟨h2, h3, -⟩ := h2
  have hm : ∀ x, x ∈ u.s.log.reverse → x ∈ u.s.log := fun x hx => List.mem_reverse.mp hx
  rw [h2] at hm
  refine ⟨u, ureach_urun _ .init h1, hm _ (by decide), ⟨_, by rw [h3]; exact List.mem_cons_of_mem _ List.mem_cons_self⟩, ⟨_, by rw [h3]; exact List.mem_cons_self⟩,
    ⟨0, 2, hm _ (by decide)⟩, ⟨0, 1, hm _ (by decide)⟩, ⟨0, 2, hm _ (by decide)⟩, ⟨some 0, hm _ (by decide)⟩⟩

/-- The four kinds of panic that end the process: in a constructor; in a function the program registered, when `origin_main` has returned; in a function a thread
registered, when the thread exits; in a `.fini_array` function, also if user code called `exit`. -/
def demoAborts : List (List UAct) :=
  [acts [.step 0, .step 0],
   acts (toMain ++ [.regProg 0] ++ steps 0 3 ++ [.ret 0 3] ++ steps 0 5),
   acts (toMain ++ [.spawn 0, .regThr 1, .ret 1 0, .step 1]),
   acts (toMain ++ [.exit 0 3] ++ steps 0 4)]

example : demoAborts.map (fun xs => (urun demo uinit xs).map fun u => (topFn u.s 0, topFn u.s 1)) =
    [some (some (.ctor 100), none), some (some (.pdtor 0), none), some (some .main, some (.tdtor 0)), some (some (.fini 208), none)] := by decide

example : (demoAborts.zip [0, 0, 1, 0]).map (fun (xs, t) => (urun demo uinit (xs ++ [.panic t])).map fun u => (u.aborted, u.left)) =
    List.replicate 4 (some (true, [])) := by decide

/-- The state after the first `n` of the actions. -/
def ustAt (c : Cfg) (xs : List UAct) (n : Nat) : UState := (urun c uinit (xs.take n)).getD uinit

theorem urun_append (xs ys : List UAct) : ∀ {u u' : UState}, urun c u xs = some u' → urun c u (xs ++ ys) = urun c u' ys := by
  induction xs with
  | nil => intro s s' h; simp only [urun, Option.some.injEq] at h; subst h; rfl
  | cons x xs ih =>
    intro s s' h
    simp only [urun, Option.bind_eq_some_iff] at h
    obtain ⟨s1, h1, h2⟩ := h
    simp only [List.cons_append, urun, h1, Option.bind_some]
    exact ih h2

theorem urun_take {xs : List UAct} (h : (urun c uinit xs).isSome = true) (n : Nat) : urun c uinit (xs.take n) = some (ustAt c xs n) := by
  have : ∀ (s : UState) (ys zs : List UAct), (urun c s (ys ++ zs)).isSome = true → (urun c s ys).isSome = true := by
    intro s ys zs
    induction ys generalizing s with
    | nil => intro _; rfl
    | cons y ys ih =>
      intro h
      simp only [List.cons_append, urun] at h ⊢
      cases hs : ustep c s y with
      | none => rw [hs] at h; cases h
      | some s1 => rw [hs] at h; exact ih s1 h
  have := this uinit (xs.take n) (xs.drop n) (by rw [List.take_append_drop]; exact h)
  obtain ⟨s, hs⟩ := Option.isSome_iff_exists.mp this
  simp [ustAt, hs]

theorem uexec_of {xs : List UAct} (h : (urun c uinit xs).isSome = true) : UExec c (ustAt c xs) (xs[·]?) := by
  refine ⟨rfl, fun n hn => ?_, fun n x hx => ?_⟩
  · have hle : xs.length ≤ n := by simpa using hn
    simp only [ustAt]
    rw [List.take_of_length_le hle, List.take_of_length_le (by omega)]
  · have h1 := urun_take h n
    have h2 := urun_take h (n + 1)
    rw [List.take_add_one, hx, Option.toList_some, urun_append _ _ h1] at h2
    simp only [urun] at h2
    cases hs : ustep c (ustAt c xs n) x with
    | none => rw [hs] at h2; cases h2
    | some s1 => rw [hs] at h2; exact h2

theorem ustAt_last {xs : List UAct} {n : Nat} (hn : xs.length ≤ n) : ustAt c xs n = (urun c uinit xs).getD uinit := by
  simp only [ustAt]; rw [List.take_of_length_le hn]

theorem umany_of {xs : List UAct} (h : (urun c uinit xs).isSome = true) : UFinitelyMany (ustAt c xs) := by
  have X := uexec_of h
  refine ⟨((urun c uinit xs).getD uinit).s.nextF, fun n f hf => ?_⟩
  have hf' : Regd (ustAt c xs (max n xs.length)).s.log f := by
    rcases hf with ⟨t, ht⟩ | ⟨t, ht⟩
    · exact .inl ⟨t, X.log_stays (Nat.le_max_left _ _) ht⟩
    · exact .inr ⟨t, X.log_stays (Nat.le_max_left _ _) ht⟩
  have R := X.reach (max n xs.length)
  rw [← ustAt_last (Nat.le_max_right n xs.length)]
  rcases hf' with hf' | ⟨t, ht⟩
  · exact R.inv.P.fresh f hf'
  · exact R.inv.T.fresh t f ht

/-- `demoPanics`, as an infinite execution: the hypotheses of the theorems are met, with `exit` calls that are left and one that ends the process. -/
example : UExec demo (ustAt demo demoPanics) (demoPanics[·]?) ∧ UFair demo (ustAt demo demoPanics) (demoPanics[·]?) ∧
    UFinite Fn.handler (ustAt demo demoPanics) (demoPanics[·]?) ∧ UQuietFini (ustAt demo demoPanics) (demoPanics[·]?) ∧ UFinitelyMany (ustAt demo demoPanics) ∧
    .exitBegin 0 0 3 ∈ (ustAt demo demoPanics demoPanics.length).s.log ∧ .exitBegin 0 2 5 ∈ (ustAt demo demoPanics demoPanics.length).s.log := by
  have hs : (urun demo uinit demoPanics).isSome = true := by decide
  have hd : ((urun demo uinit demoPanics).getD uinit).s.dead = true := by decide
  have hl : ((urun demo uinit demoPanics).getD uinit).s.log.contains (.exitBegin 0 0 3) = true ∧
      ((urun demo uinit demoPanics).getD uinit).s.log.contains (.exitBegin 0 2 5) = true := by decide
  refine ⟨uexec_of hs, fun t n => ⟨max n demoPanics.length, Nat.le_max_left _ _, .inr ?_⟩,
    fun n t fn _ _ => ⟨max n demoPanics.length, Nat.le_max_left _ _, .inr (.inl ?_)⟩, ?_, umany_of hs, ?_, ?_⟩
  · rw [ustAt_last (Nat.le_max_right _ _)]
    simp [ustep, step, hd]
  · rw [ustAt_last (Nat.le_max_right _ _)]; exact hd
  · intro n t p hr
    have chk : ∀ n : Fin demoPanics.length, (match demoPanics[n.val]? with
        | some (.act (.exit t _)) | some (.act (.regProg t)) => match (ustAt demo demoPanics n).s.stk t with
            | .user (.fini _) :: _ => false
            | _ => true
        | _ => true) = true := by decide
    by_cases hn : n < demoPanics.length
    · have h := chk ⟨n, hn⟩
      obtain ⟨rest, hr⟩ := hr
      refine ⟨fun v hv => ?_, fun hv => ?_⟩ <;> (simp [hv, hr] at h)
    · have : demoPanics[n]? = none := by simpa using hn
      simp [this]
  · rw [ustAt_last (Nat.le_refl _)]; simpa using hl.1
  · rw [ustAt_last (Nat.le_refl _)]; simpa using hl.2

end Origin.Proc
